import Verif.Proofs.OutText
import Verif.Props.Examples
import Verif.Props.Lexer
/-
Properties of the formatted text of accepted files: its layout.
-/
namespace Mofmt
open Lexical

/-! ### From pieces to text -/

theorem isBrk_text {eol : Text} {w : Option Piece} (h : isBrk w = true) : LineBreak eol (wtext eol w) := by
  match w, h with
  | some (.nl n), _ => exact ⟨n, .inl (by simp [wtext, Piece.text, indentText_eq])⟩
  | some (.bl n), _ => exact ⟨n, .inr (by simp [wtext, Piece.text, indentText_eq])⟩

theorem GroupsOK.each {ok : Tok → Gap → KSet} {C : List Token} {eol : Text}
    {P : Option Token → Group → Prop}
    (hP : ∀ prev d g, GOK ok C prev d g → P prev (g.toGroup eol)) :
    ∀ (ds : List (Dec × Token)) (gs : List PGroup) (prev : Option Token), GroupsOK ok C prev ds gs →
      EachGroup P prev (gs.map (PGroup.toGroup eol))
  | [], [], _, _ => trivial
  | [], _ :: _, _, h => h.elim
  | _ :: _, [], _, h => h.elim
  | x :: ds, g :: gs, prev, h => by
    refine ⟨hP _ _ _ h.1, ?_⟩
    have := GroupsOK.each hP ds gs (some x.2) h.2.2
    rw [← h.2.1] at this
    exact this

/-- every group with its decision -/
theorem GroupsOK.mem {ok : Tok → Gap → KSet} {C : List Token} :
    ∀ (ds : List (Dec × Token)) (gs : List PGroup) (prev : Option Token), GroupsOK ok C prev ds gs →
      (∀ x ∈ ds, ∃ g ∈ gs, g.tok = x.2 ∧ ∃ prev', GOK ok C prev' x.1 g) ∧
      (∀ g ∈ gs, ∃ d prev', GOK ok C prev' d g)
  | [], [], _, _ => ⟨by simp, by simp⟩
  | [], _ :: _, _, h => h.elim
  | _ :: _, [], _, h => h.elim
  | x :: ds, g :: gs, prev, h => by
    obtain ⟨h1, h2⟩ := GroupsOK.mem ds gs _ h.2.2
    constructor
    · intro y hy
      rcases List.mem_cons.mp hy with rfl | hy
      · exact ⟨g, List.mem_cons_self, h.2.1, prev, h.1⟩
      · obtain ⟨g', a, b⟩ := h1 y hy
        exact ⟨g', List.mem_cons_of_mem _ a, b⟩
    · intro y hy
      rcases List.mem_cons.mp hy with rfl | hy
      · exact ⟨_, _, h.1⟩
      · exact h2 y hy

/-- The white space of a token, by the decision. -/
theorem GOK.white_cases {ok : Tok → Gap → KSet} {C : List Token} {prev : Option Token} {d : Dec} {g : PGroup}
    (h : GOK ok C prev d g) (eol : Text) :
    (d = .none ∧ (g.toGroup eol).white = [] ∧ (g.toGroup eol).comments = []) ∨
    (d = .space ∧ (g.toGroup eol).white = [' '] ∧ (g.toGroup eol).comments = []) ∨
    (∃ b n, d = .brk b n ∧ LineBreak eol (g.toGroup eol).white ∧
      (g.toGroup eol).comments.map (·.2) = commentsFrom (indexAfter prev) (g.toGroup eol).tok.idx C) := by
  cases d with
  | none => left; simp [PGroup.toGroup, h.none rfl, wtext]
  | space => right; left; simp [PGroup.toGroup, h.space rfl, wtext, Piece.text]
  | brk b n =>
    right; right
    obtain ⟨h1, h2, _⟩ := h.brk b n rfl
    exact ⟨b, n, rfl, isBrk_text h1, by simpa [PGroup.toGroup, Function.comp_def] using h2⟩

theorem GOK.com_white {ok : Tok → Gap → KSet} {C : List Token} {prev : Option Token} {d : Dec} {g : PGroup}
    (h : GOK ok C prev d g) (eol : Text) : ∀ x ∈ (g.toGroup eol).lexemes, SameLine x.1 ∨ LineBreak eol x.1 := by
  intro x hx
  simp only [Group.lexemes, List.mem_append, List.mem_singleton] at hx
  rcases hx with hx | rfl
  · simp only [PGroup.toGroup, List.mem_map] at hx
    obtain ⟨s, hs, rfl⟩ := hx
    rcases h.com s hs with h1 | ⟨_, h1 | ⟨h1, _⟩⟩
    · exact .inr (isBrk_text h1)
    · left; right; rw [h1]; rfl
    · left; left; rw [h1]; rfl
  · rcases h.white_cases eol with h1 | h1 | ⟨b, n, _, h1, _⟩
    · exact .inl (.inl h1.2.1)
    · exact .inl (.inr h1.2.1)
    · exact .inr h1

/-! ### Formatting succeeds -/

/-- **C03** Formatting an accepted file never panics: the tree is built, formatted and printed. -/
theorem C03_formatting_succeeds (eol name src : Text) (p : Parsed)
    (h : parse name src .StoredDefinition = .ok p) (he : p.errors = []) :
    ∃ tree marks text, buildTree p.tokens p.events = .ok tree ∧ format tree p.comments = .ok marks ∧
      printMarks eol marks 0 = .ok text ∧ prettyPrint eol p.tokens p.comments p.events = .ok text := by
  obtain ⟨cs, marks, ds, n, h1, h2, h3, h4, h5, h6⟩ := accepted_laid full_valid (by decide) (by decide) h he
    (by intro h; cases h)
  have := printMarks_scan (eol := eol) h6.scan
  rw [List.reverse_reverse] at this
  exact ⟨_, marks, _, h1, h5, this, by simp only [prettyPrint, h1, Res.bind_ok, h5, this]⟩

/-- Every accepted file has a formatted text. -/
theorem C03_formatted (eol name src : Text) (p : Parsed) (h : parse name src .StoredDefinition = .ok p)
    (he : p.errors = []) : ∃ out, Formatted eol name src p out := by
  obtain ⟨_, _, t, _, _, _, h4⟩ := C03_formatting_succeeds eol name src p h he
  exact ⟨t ++ eol, h, he, t, h4, rfl⟩

/-- the file that is used as example below -/
def exOut : Text := c!"// a\nwithin A; // b\nmodel   A  \n Real x = 1 +\n 2; /* c */ // d\n\n\n // e\n Real y; equation x=y; end A; // f\n"

example : ∃ p, parse c!"f" exOut .StoredDefinition = .ok p ∧ p.errors = [] ∧ p.comments.length = 6 := by
  refine ⟨match parse c!"f" exOut .StoredDefinition with | .ok p => p | _ => ⟨[], [], [], []⟩, ?_⟩
  decide +kernel

theorem Formatted.groups {eol name src out : Text} {p : Parsed} (h : Formatted eol name src p out) :
    ∃ cs ds gs, buildTree p.tokens p.events = .ok (.node .StoredDefinition cs) ∧ leavesF cs = p.tokens ∧
      ds.map (·.2) = p.tokens ∧
      gs.map (·.tok) = p.tokens ∧ GroupsOK fullTabs.ok p.comments none ds gs ∧
      StOK fullTabs.entry (startsF cs) ds ∧ (ds = [] ∨ lastKind .EOF ds = .Semicolon) ∧
      out = groupsText (gs.map (PGroup.toGroup eol)) ++ eol := by
  obtain ⟨h1, h2, t, h3, h4⟩ := h
  obtain ⟨cs, ds, gs, a1, a2, a3, a4, a5, a6, a7, a8, a9⟩ := accepted_groups h1 h2
  refine ⟨cs, ds, gs, a1, a2, a4, a5, a6, a7, a8, ?_⟩
  rw [a9] at h3
  rw [h4]
  cases h3
  rfl

/-! ### Comments -/

/-- **C05** For every token of the source: if the output has a line break before it, all comments that stand
in the source between it and the token before it are printed before it, in order; if not, none is.  Nothing
is printed after the last token but a line end. -/
theorem C05_comments_at_breaks (eol name src out : Text) (p : Parsed) (h : Formatted eol name src p out) :
    ∃ gs : List Group, out = groupsText gs ++ eol ∧ gs.map (·.tok) = p.tokens ∧
      EachGroup (fun prev g =>
        (LineBreak eol g.white ∧
          g.comments.map (·.2) = commentsFrom (indexAfter prev) g.tok.idx p.comments) ∨
        (SameLine g.white ∧ g.comments = [])) none gs := by
  obtain ⟨cs, ds, gs, a1, a2, a3, a4, a5, a6, a7, a8⟩ := h.groups
  refine ⟨gs.map (PGroup.toGroup eol), a8, by simpa [PGroup.toGroup, Function.comp_def] using a4, ?_⟩
  refine GroupsOK.each ?_ ds gs none a5
  intro prev d g hg
  rcases hg.white_cases eol with ⟨_, h1, h2⟩ | ⟨_, h1, h2⟩ | ⟨b, n, _, h1, h2⟩
  · exact .inr ⟨.inl h1, h2⟩
  · exact .inr ⟨.inr h1, h2⟩
  · exact .inl ⟨h1, h2⟩

/-! ### White space -/

theorem commentsFrom_append {C : List Token} {i j k : Nat} (hij : i ≤ j) (hjk : j ≤ k)
    (hs : C.Pairwise (fun a b => a.idx < b.idx)) (hj : ∀ c ∈ C, c.idx ≠ j) :
    commentsFrom i j C ++ commentsFrom (j + 1) k C = commentsFrom i k C := by
  unfold commentsFrom
  induction C with
  | nil => rfl
  | cons c cs ih =>
    obtain ⟨p1, p2⟩ := List.pairwise_cons.mp hs
    have ih := ih p2 (fun d hd => hj d (List.mem_cons_of_mem _ hd))
    have hc := hj c List.mem_cons_self
    simp only [List.filter_cons, decide_eq_true_eq]
    by_cases h1 : c.idx < j
    · have e3 : ¬ (j + 1 ≤ c.idx ∧ c.idx < k) := by omega
      rw [if_neg e3]
      by_cases h2 : i ≤ c.idx
      · rw [if_pos (by omega), if_pos (by omega), List.cons_append, ih]
      · rw [if_neg (by omega), if_neg (by omega), ih]
    · have e1 : ¬ (i ≤ c.idx ∧ c.idx < j) := by omega
      have e0 : cs.filter (fun c => decide (i ≤ c.idx ∧ c.idx < j)) = [] := by
        rw [List.filter_eq_nil_iff]
        intro d hd
        have := p1 d hd
        simp; omega
      rw [e0] at ih ⊢
      rw [if_neg e1]
      simp only [List.nil_append] at ih ⊢
      rw [ih]
      by_cases h2 : c.idx < k
      · rw [if_pos (by omega), if_pos (by omega)]
      · rw [if_neg (by omega), if_neg (by omega)]

/-- The printed comments are comments of the source, in order. -/
theorem GroupsOK.sublist {ok : Tok → Gap → KSet} {C : List Token} {eol : Text}
    (hs : C.Pairwise (fun a b => a.idx < b.idx)) :
    ∀ (ds : List (Dec × Token)) (gs : List PGroup) (prev : Option Token), GroupsOK ok C prev ds gs →
      (ds.map (·.2)).Pairwise (fun a b => a.idx < b.idx) →
      (∀ x ∈ ds, indexAfter prev ≤ x.2.idx ∧ ∀ c ∈ C, c.idx ≠ x.2.idx) →
      ∃ k, (gs.flatMap fun g => (g.toGroup eol).comments.map (·.2)).Sublist (commentsFrom (indexAfter prev) k C) ∧
        indexAfter prev ≤ k
  | [], [], prev, _, _, _ => ⟨indexAfter prev, by simp, Nat.le_refl _⟩
  | [], _ :: _, _, h, _, _ => h.elim
  | _ :: _, [], _, h, _, _ => h.elim
  | x :: ds, g :: gs, prev, h, hp, hC => by
    simp only [List.map_cons, List.pairwise_cons] at hp
    obtain ⟨k, h1, h2⟩ := GroupsOK.sublist (eol := eol) hs ds gs (some x.2) h.2.2 hp.2 (by
      intro y hy
      refine ⟨?_, (hC y (List.mem_cons_of_mem _ hy)).2⟩
      have := hp.1 y.2 (List.mem_map_of_mem hy)
      simp only [indexAfter]; omega)
    have hx := hC x List.mem_cons_self
    have h2' : x.2.idx ≤ k := by simp only [indexAfter] at h2; omega
    refine ⟨k, ?_, by omega⟩
    rw [List.flatMap_cons, ← commentsFrom_append hx.1 h2' hs hx.2]
    refine List.Sublist.append ?_ h1
    rcases h.1.white_cases eol with ⟨_, _, h2⟩ | ⟨_, _, h2⟩ | ⟨b, n, _, _, h2⟩
    · simp [h2]
    · simp [h2]
    · rw [h2]
      have : (g.toGroup eol).tok = x.2 := h.2.1
      rw [this]
      exact List.Sublist.refl _

theorem lexemes_filter {C : List Token} (hC : ∀ c ∈ C, isComment c = true) : ∀ (gs : List Group),
    (∀ g ∈ gs, isComment g.tok = false) → (∀ g ∈ gs, ∀ x ∈ g.comments, x.2 ∈ C) →
    ((groupLexemes gs).map (·.2)).filter (fun t => !isComment t) = gs.map (·.tok) ∧
    ((groupLexemes gs).map (·.2)).filter isComment = gs.flatMap fun g => g.comments.map (·.2)
  | [], _, _ => ⟨rfl, rfl⟩
  | g :: gs, h1, h2 => by
    obtain ⟨i1, i2⟩ := lexemes_filter hC gs (fun g hg => h1 g (List.mem_cons_of_mem _ hg))
      (fun g hg => h2 g (List.mem_cons_of_mem _ hg))
    have hc : ∀ t ∈ g.comments.map (·.2), isComment t = true := by
      intro t ht
      obtain ⟨x, hx, rfl⟩ := List.mem_map.mp ht
      exact hC _ (h2 g List.mem_cons_self x hx)
    have ht := h1 g List.mem_cons_self
    have e : (groupLexemes (g :: gs)).map (·.2) =
        g.comments.map (·.2) ++ g.tok :: (groupLexemes gs).map (·.2) := by
      simp [groupLexemes, Group.lexemes]
    have f1 : (g.comments.map (·.2)).filter (fun t => !isComment t) = [] := by
      rw [List.filter_eq_nil_iff]; intro t h; simp [hc t h]
    have f2 : (g.comments.map (·.2)).filter isComment = g.comments.map (·.2) := by
      rw [List.filter_eq_self]; exact hc
    rw [e, List.filter_append, List.filter_append, List.filter_cons, List.filter_cons, f1, f2, i1, i2]
    simp [ht]

/-- Comments of the source only are printed. -/
theorem GOK.com_mem {ok : Tok → Gap → KSet} {C : List Token} {prev : Option Token} {d : Dec} {g : PGroup}
    (h : GOK ok C prev d g) (eol : Text) : ∀ x ∈ (g.toGroup eol).comments, x.2 ∈ C := by
  intro x hx
  rcases h.white_cases eol with ⟨_, _, h2⟩ | ⟨_, _, h2⟩ | ⟨b, n, _, _, h2⟩
  · rw [h2] at hx; cases hx
  · rw [h2] at hx; cases hx
  · have : x.2 ∈ commentsFrom (indexAfter prev) (g.toGroup eol).tok.idx C := h2 ▸ List.mem_map_of_mem hx
    exact (List.mem_filter.mp this).1

/-- The lexemes of groups with the white space before them. -/
theorem Formatted.filters {eol name src out : Text} {p : Parsed} (h : Formatted eol name src p out)
    {ds : List (Dec × Token)} {gs : List PGroup} (a3 : ds.map (·.2) = p.tokens) (a4 : gs.map (·.tok) = p.tokens)
    (a5 : GroupsOK fullTabs.ok p.comments none ds gs) :
    ((groupLexemes (gs.map (PGroup.toGroup eol))).map (·.2)).filter (fun t => !isComment t) = p.tokens ∧
    (((groupLexemes (gs.map (PGroup.toGroup eol))).map (·.2)).filter isComment).Sublist p.comments ∧
    ∀ x ∈ groupLexemes (gs.map (PGroup.toGroup eol)), SameLine x.1 ∨ LineBreak eol x.1 := by
  obtain ⟨l, hl, l1, l2, l3⟩ := parse_lex h.parsed h.accepted
  obtain ⟨all, o1, o2, o3, o4⟩ := lexed_order hl
  have hC : ∀ c ∈ p.comments, isComment c = true := by
    intro c hc; rw [← l2, o2] at hc; exact (List.mem_filter.mp hc).2
  have hT : ∀ t ∈ p.tokens, isComment t = false := by
    intro t ht; rw [← l1, o1] at ht; simpa using (List.mem_filter.mp ht).2
  have hm := GroupsOK.mem ds gs none a5
  have hf := lexemes_filter hC (gs.map (PGroup.toGroup eol)) (by
      intro g hg
      obtain ⟨g', hg', rfl⟩ := List.mem_map.mp hg
      exact hT _ (a4 ▸ List.mem_map_of_mem (f := (·.tok)) hg'))
    (by
      intro g hg
      obtain ⟨g', hg', rfl⟩ := List.mem_map.mp hg
      obtain ⟨d, pr, hk⟩ := hm.2 g' hg'
      exact hk.com_mem eol)
  refine ⟨?_, ?_, ?_⟩
  · rw [hf.1, ← a4]; simp [PGroup.toGroup, Function.comp_def]
  · rw [hf.2]
    have hcs : p.comments.Pairwise (fun a b => a.idx < b.idx) := by
      rw [← l2, o2]; exact (o3.sublist List.filter_sublist).imp (fun h => h.1)
    have hts : (ds.map (·.2)).Pairwise (fun a b => a.idx < b.idx) := by
      rw [a3, ← l1, o1]; exact (o3.sublist List.filter_sublist).imp (fun h => h.1)
    obtain ⟨k, s1, _⟩ := GroupsOK.sublist (eol := eol) hcs ds gs none a5 hts (by
      intro x hx
      exact ⟨Nat.zero_le _, parse_idx_ne h.parsed h.accepted _ (a3 ▸ List.mem_map_of_mem hx)⟩)
    rw [List.flatMap_map]
    exact s1.trans (List.filter_sublist)
  · intro x hx
    simp only [groupLexemes, List.mem_flatMap, List.mem_map] at hx
    obtain ⟨g, ⟨g', hg', rfl⟩, hx⟩ := hx
    obtain ⟨d, pr, hk⟩ := hm.2 g' hg'
    exact hk.com_white eol x hx

/-- The lexemes of the output with the white space before them. -/
theorem Formatted.lexemes {eol name src out : Text} {p : Parsed} (h : Formatted eol name src p out) :
    ∃ ls : List (Text × Token), out = lexemesText ls ++ eol ∧
      (ls.map (·.2)).filter (fun t => !isComment t) = p.tokens ∧
      ((ls.map (·.2)).filter isComment).Sublist p.comments ∧
      ∀ x ∈ ls, SameLine x.1 ∨ LineBreak eol x.1 := by
  obtain ⟨cs, ds, gs, a1, a2, a3, a4, a5, a6, a7, a8⟩ := h.groups
  exact ⟨groupLexemes (gs.map (PGroup.toGroup eol)), a8, h.filters a3 a4 a5⟩

/-- **C08** The output is a sequence of all tokens of the source and some of its comments, in order, followed
by a line end; between two of them there is nothing, a blank, or one or two line ends and an even number of
blanks. -/
theorem C08_white_space (eol name src out : Text) (p : Parsed) (h : Formatted eol name src p out) :
    ∃ ls : List (Text × Token), out = lexemesText ls ++ eol ∧
      (ls.map (·.2)).filter (fun t => !isComment t) = p.tokens ∧
      ((ls.map (·.2)).filter isComment).Sublist p.comments ∧
      ∀ x ∈ ls, SameLine x.1 ∨ LineBreak eol x.1 := h.lexemes

/-! ### No trailing blanks, no two empty lines -/

/-- Unmarked characters between marked ones. -/
theorem infix_split {x : List (Char × Bool)} (hx : ∀ y ∈ x, y.2 = false) {a b : List (Char × Bool)} {c : Char}
    (h : x <:+: a ++ (c, true) :: b) : x <:+: a ∨ x <:+: b := by
  obtain ⟨s, t, h⟩ := h
  rw [List.append_assoc, List.append_eq_append_iff] at h
  rcases h with ⟨u, rfl, h⟩ | ⟨u, rfl, h⟩
  · -- `x ++ t = u ++ (c, true) :: b`
    rw [List.append_eq_append_iff] at h
    rcases h with ⟨v, rfl, h⟩ | ⟨v, rfl, h⟩
    · exact .inl ⟨s, v, by simp⟩
    · cases v with
      | nil => exact .inl ⟨s, [], by simp⟩
      | cons z v =>
        simp only [List.cons_append, List.cons.injEq] at h
        have := hx z (by simp)
        rw [← h.1] at this; cases this
  · -- `(c, true) :: b = u ++ (x ++ t)`
    cases u with
    | nil =>
      cases x with
      | nil => exact .inl ⟨[], a, by simp⟩
      | cons z x =>
        simp only [List.nil_append, List.cons_append, List.cons.injEq] at h
        have := hx z (by simp)
        rw [← h.1] at this; cases this
    | cons z u =>
      simp only [List.cons_append, List.cons.injEq] at h
      exact .inr ⟨u, t, by rw [h.2]; simp⟩

theorem infix_marks {x : List (Char × Bool)} (hx : ∀ y ∈ x, y.2 = false) {t : Text} (ht : t ≠ []) :
    ∀ {a b : List (Char × Bool)}, x <:+: a ++ (t.map (·, true) ++ b) → x <:+: a ∨ x <:+: b := by
  induction t with
  | nil => exact absurd rfl ht
  | cons c t ih =>
    intro a b h
    rw [List.map_cons, List.cons_append] at h
    rcases infix_split hx h with h | h
    · exact .inl h
    · cases t with
      | nil => exact .inr (by simpa using h)
      | cons d t =>
        rcases ih (by simp) (a := []) h with h | h
        · left
          have : x = [] := List.infix_nil.mp h
          subst this; exact ⟨[], a, by simp⟩
        · exact .inr h

theorem infix_white {x : Text} : ∀ {ls : List (Text × Token)} {eol : Text}, (∀ y ∈ ls, y.2.text ≠ []) →
    x.map (·, false) <:+: marked ls eol → (∃ y ∈ ls, x <:+: y.1) ∨ x <:+: eol
  | [], eol, _, h => by
    right
    simp only [marked, List.flatMap_nil, List.nil_append] at h
    have := h.map Prod.fst
    simpa [Function.comp_def] using this
  | y :: ls, eol, hn, h => by
    have e : marked (y :: ls) eol = y.1.map (·, false) ++ (y.2.text.map (·, true) ++ marked ls eol) := by
      simp [marked]
    rw [e] at h
    rcases infix_marks (by simp) (hn y List.mem_cons_self) h with h | h
    · left
      refine ⟨y, List.mem_cons_self, ?_⟩
      have := h.map Prod.fst
      simpa [Function.comp_def] using this
    · rcases infix_white (fun z hz => hn z (List.mem_cons_of_mem _ hz)) h with ⟨z, hz, h⟩ | h
      · exact .inl ⟨z, List.mem_cons_of_mem _ hz, h⟩
      · exact .inr h

theorem blank_then {e : Text} (he : ' ' ∉ e) {n : Nat} {c : Char} (hc : c ≠ ' ') :
    ¬ [' ', c] <:+: e ++ blanks n := by
  rintro ⟨s, t, h⟩
  rw [List.append_assoc, List.append_eq_append_iff] at h
  have hb : ∀ z ∈ blanks n, z = ' ' := fun z hz => (List.mem_replicate.mp hz).2
  rcases h with ⟨u, rfl, h⟩ | ⟨u, rfl, h⟩
  · cases u with
    | nil =>
      have : c ∈ blanks n := by
        have h' : ' ' :: c :: t = blanks n := by simpa using h
        rw [← h']; simp
      exact hc (hb c this)
    | cons z u =>
      simp only [List.cons_append, List.nil_append, List.cons.injEq] at h
      rw [← h.1] at he; simp at he
  · have : c ∈ blanks n := by rw [h]; simp
    exact hc (hb c this)

theorem eol_no_blank {eol : Text} (h : IsEol eol) : ' ' ∉ eol := by
  rcases h with rfl | rfl <;> decide

theorem eol_count {eol : Text} (h : IsEol eol) : eol.count '\n' = 1 := by
  rcases h with rfl | rfl <;> decide

theorem blanks_count (n : Nat) : (blanks n).count '\n' = 0 := by
  rw [List.count_eq_zero]
  intro h
  have := (List.mem_replicate.mp h).2
  revert this; decide

theorem white_facts {eol w : Text} (he : IsEol eol) (h : SameLine w ∨ LineBreak eol w) :
    (∀ c, c ≠ ' ' → ¬ [' ', c] <:+: w) ∧ ¬ eol ++ eol ++ eol <:+: w := by
  have hcnt : w.count '\n' ≤ 2 ∧ ∃ e n, ' ' ∉ e ∧ w = e ++ blanks n := by
    have e1 := eol_count he
    have e2 := eol_no_blank he
    rcases h with (rfl | rfl) | ⟨n, rfl | rfl⟩
    · exact ⟨by simp, [], 0, by simp, rfl⟩
    · exact ⟨by decide, [], 1, by simp, rfl⟩
    · exact ⟨by rw [List.count_append, blanks_count]; omega, eol, _, e2, rfl⟩
    · exact ⟨by rw [List.count_append, List.count_append, blanks_count]; omega, eol ++ eol, _, by simp [e2], rfl⟩
  obtain ⟨h1, e, n, h2, rfl⟩ := hcnt
  refine ⟨fun c hc => blank_then h2 hc, ?_⟩
  intro hi
  have := hi.sublist.count_le '\n'
  rw [List.count_append, List.count_append, eol_count he] at this
  omega

/-- **C09** is false at the very beginning of a file: the output of `exTwoBlank` begins with two empty
lines. -/
def exTwoBlank : Text := c!"\n\nfinal model A end A;\n"

theorem C09_false : ∃ p, Formatted c!"\n" c!"f" exTwoBlank p c!"\n\nfinal model A\n\nend A;\n" := by
  refine ⟨match parse c!"f" exTwoBlank .StoredDefinition with | .ok p => p | _ => ⟨[], [], [], []⟩, ?_, ?_, ?_⟩
  · decide_cbv
  · decide_cbv
  · exact ⟨c!"\n\nfinal model A\n\nend A;", by decide_cbv, rfl⟩

/-- **C09** (part) Outside the texts of tokens and comments no line of the output ends with a blank, and there
are never three line ends in a row.  Missing: the first two lines of the output can be empty. -/
theorem C09_no_trailing_blanks_partial (eol name src out : Text) (p : Parsed)
    (h : Formatted eol name src p out) (he : IsEol eol) :
    ∃ ls : List (Text × Token), out = lexemesText ls ++ eol ∧
      (ls.map (·.2)).filter (fun t => !isComment t) = p.tokens ∧
      ((ls.map (·.2)).filter isComment).Sublist p.comments ∧
      (∀ c, c ≠ ' ' → ¬ [(' ', false), (c, false)] <:+: marked ls eol) ∧
      ¬ (eol ++ eol ++ eol).map (·, false) <:+: marked ls eol := by
  obtain ⟨ls, h1, h2, h3, h4⟩ := h.lexemes
  have hn : ∀ y ∈ ls, y.2.text ≠ [] := by
    intro y hy
    obtain ⟨l, hl, l1, l2, _⟩ := parse_lex h.parsed h.accepted
    have hcl := C19_classes _ _ _ hl
    have hy2 : y.2 ∈ ls.map (·.2) := List.mem_map_of_mem hy
    cases hc : isComment y.2 with
    | false =>
      have : y.2 ∈ p.tokens := by rw [← h2]; exact List.mem_filter.mpr ⟨hy2, by simp [hc]⟩
      rw [← l1] at this
      exact class_ne_nil (hcl.1 _ this).1
    | true =>
      have : y.2 ∈ p.comments := h3.mem (List.mem_filter.mpr ⟨hy2, hc⟩)
      rw [← l2] at this
      exact class_ne_nil (hcl.2 _ this).1
  refine ⟨ls, h1, h2, h3, ?_, ?_⟩
  · intro c hc hi
    rcases infix_white (x := [' ', c]) hn hi with ⟨y, hy, hi⟩ | hi
    · exact (white_facts he (h4 y hy)).1 c hc hi
    · exact eol_no_blank he (hi.subset (by simp))
  · intro hi
    rcases infix_white hn hi with ⟨y, hy, hi⟩ | hi
    · exact (white_facts he (h4 y hy)).2 hi
    · have := hi.sublist.count_le '\n'
      rw [List.count_append, List.count_append, eol_count he] at this
      omega

/-! ### Indentation -/

theorem scan_count : ∀ {ms : List Marker} {out : List Piece} {n : Nat}, scanMarks ms = some (out, n) →
    ms.count .dedent + n = ms.count .indent
  | [], _, _, h => by simp [scanMarks] at h; simp [← h.2]
  | m :: ms, out, n, h => by
    rw [scanMarks] at h
    split at h
    · cases h
    · rename_i o k hk
      have ih := scan_count hk
      cases m
      case dedent =>
        simp only at h
        split at h
        · cases h
        · simp only [Option.some.injEq, Prod.mk.injEq] at h
          rw [List.count_cons_self, List.count_cons_of_ne (by simp)]
          omega
      case indent =>
        simp only [Option.some.injEq, Prod.mk.injEq] at h
        rw [List.count_cons_self, List.count_cons_of_ne (by simp)]
        omega
      all_goals
        simp only [Option.some.injEq, Prod.mk.injEq] at h
        rw [List.count_cons_of_ne (by simp), List.count_cons_of_ne (by simp)]
        omega

theorem scan_suffix : ∀ {a b : List Marker} {x : List Piece × Nat}, scanMarks (a ++ b) = some x →
    ∃ y, scanMarks b = some y
  | [], _, x, h => ⟨x, h⟩
  | m :: a, b, x, h => by
    rw [List.cons_append, scanMarks] at h
    split at h
    · cases h
    · rename_i hk
      exact scan_suffix hk

/-- **C10** In no first part of the markers of an accepted file there are more dedents than indents, and the
printer accepts all of them. -/
theorem C10_no_underflow (eol name src : Text) (p : Parsed) (h : parse name src .StoredDefinition = .ok p)
    (he : p.errors = []) : ∃ tree marks, buildTree p.tokens p.events = .ok tree ∧
      format tree p.comments = .ok marks ∧ (∃ t, printMarks eol marks 0 = .ok t) ∧
      ∀ pre post, marks = pre ++ post → pre.count .dedent ≤ pre.count .indent := by
  obtain ⟨cs, marks, ds, n, h1, h2, h3, h4, h5, h6⟩ := accepted_laid full_valid (by decide) (by decide) h he
    (by intro h; cases h)
  have := printMarks_scan (eol := eol) h6.scan
  rw [List.reverse_reverse] at this
  refine ⟨_, marks, h1, h5, ⟨_, this⟩, ?_⟩
  rintro pre post rfl
  have hs := h6.scan
  rw [List.reverse_append] at hs
  obtain ⟨⟨o, k⟩, hk⟩ := scan_suffix hs
  have := scan_count hk
  rw [List.count_reverse, List.count_reverse] at this
  omega

/-- parsed file, tree and markers, for examples -/
def pipeline (name src : Text) : Option (Parsed × Tree × List Marker) :=
  match parse name src .StoredDefinition with
  | .ok p => match buildTree p.tokens p.events with
    | .ok t => match format t p.comments with
      | .ok m => some (p, t, m)
      | _ => none
    | _ => none
  | _ => none

theorem pipeline_eq {name src : Text} {p : Parsed} {t : Tree} {m : List Marker}
    (h : pipeline name src = some (p, t, m)) : parse name src .StoredDefinition = .ok p ∧
      buildTree p.tokens p.events = .ok t ∧ format t p.comments = .ok m := by
  unfold pipeline at h
  repeat' split at h
  all_goals cases h
  exact ⟨by assumption, by assumption, by assumption⟩

theorem pipeline_any {α : Type} {o : Option α} {f : α → Bool} (h : o.any f = true) :
    ∃ x, o = some x ∧ f x = true := by
  cases o with
  | none => cases h
  | some x => exact ⟨x, rfl, h⟩

/-- A file whose indentation is not balanced: the operator of a left hand side is on the next line. -/
def exLeak : Text := c!"model A\nequation\na\n+ b = c;\nend A;\n"

/-- **C11** is false: the markers of `exLeak` have one indent more than dedents. -/
theorem C11_false : ∃ p tree marks, parse c!"f" exLeak .StoredDefinition = .ok p ∧ p.errors = [] ∧
    buildTree p.tokens p.events = .ok tree ∧ format tree p.comments = .ok marks ∧
    marks.count .indent = marks.count .dedent + 1 := by
  have h : (pipeline c!"f" exLeak).any (fun x => x.1.errors.isEmpty &&
      (x.2.2.count .indent == x.2.2.count .dedent + 1)) = true := by decide_cbv
  obtain ⟨⟨p, t, m⟩, hx, h⟩ := pipeline_any h
  obtain ⟨h1, h2, h3⟩ := pipeline_eq hx
  simp only [Bool.and_eq_true, List.isEmpty_iff, beq_iff_eq] at h
  exact ⟨p, t, m, h1, h.1, h2, h3, h.2⟩

/-- test for `flatPairs` -/
def flatPairsB : List Tree → Bool
  | x :: o :: y :: rest =>
    (match x.end?, y.start? with
      | some e, some s => decide (s.start.line ≤ e.stop.line)
      | _, _ => true) && flatPairsB (o :: y :: rest)
  | _ => true

theorem flatPairsB_sound : ∀ cs, flatPairsB cs = true → flatPairs cs
  | [], _ => trivial
  | [_], _ => trivial
  | [_, _], _ => trivial
  | x :: o :: y :: rest, h => by
    simp only [flatPairsB, Bool.and_eq_true] at h
    refine ⟨?_, flatPairsB_sound _ h.2⟩
    intro e s he hs
    have := h.1
    rw [he, hs] at this
    simpa using this

mutual
/-- test for `NoWrap` -/
def Tree.noWrapB : Tree → Bool
  | .tok _ => true
  | .node k cs => (!binKind k || flatPairsB cs) && noWrapFB cs
def noWrapFB : List Tree → Bool
  | [] => true
  | t :: ts => t.noWrapB && noWrapFB ts
end

mutual
theorem noWrapB_sound (t : Tree) (h : t.noWrapB = true) : t.NoWrap := by
  match t with
  | .tok _ => simp [Tree.NoWrap]
  | .node k cs =>
    simp only [Tree.noWrapB, Bool.and_eq_true, Bool.or_eq_true, Bool.not_eq_true'] at h
    refine ⟨fun hb => ?_, noWrapFB_sound cs h.2⟩
    rcases h.1 with h | h
    · rw [hb] at h; cases h
    · exact flatPairsB_sound cs h
theorem noWrapFB_sound (ts : List Tree) (h : noWrapFB ts = true) : NoWrapF ts := by
  match ts with
  | [] => simp [NoWrapF]
  | t :: ts =>
    simp only [noWrapFB, Bool.and_eq_true] at h
    exact ⟨noWrapB_sound t h.1, noWrapFB_sound ts h.2⟩
end

/-- A file with operators and line breaks that meets the hypotheses of the next theorem. -/
def exFlat : Text := c!"model A\nequation\n x + 1 =\n 2 * y\n;\nend A;\n"

set_option maxRecDepth 4000 in
example : ∃ p t, parse c!"f" exFlat .StoredDefinition = .ok p ∧ p.errors = [] ∧
    buildTree p.tokens p.events = .ok t ∧ t.NoWrap := by
  have h : (pipeline c!"f" exFlat).any (fun x => x.1.errors.isEmpty && x.2.1.noWrapB) = true := by decide_cbv
  obtain ⟨⟨p, t, m⟩, hx, h⟩ := pipeline_any h
  obtain ⟨h1, h2, h3⟩ := pipeline_eq hx
  simp only [Bool.and_eq_true, List.isEmpty_iff] at h
  exact ⟨p, t, h1, h.1, h2, noWrapB_sound t h.2⟩

/-- **C11** (part) If no binary operator of the file has its operands on different lines, indents and dedents
are balanced. -/
theorem C11_balanced_partial (name src : Text) (p : Parsed) (h : parse name src .StoredDefinition = .ok p)
    (he : p.errors = []) (hF : ∀ t, buildTree p.tokens p.events = .ok t → t.NoWrap) :
    ∃ tree marks, buildTree p.tokens p.events = .ok tree ∧ format tree p.comments = .ok marks ∧
      marks.count .indent = marks.count .dedent := by
  obtain ⟨t, marks, out, h1, h2, h3⟩ := accepted_flat h he hF
  refine ⟨t, marks, h1, h2, ?_⟩
  have := scan_count h3
  rw [List.count_reverse, List.count_reverse] at this
  omega

/-! ### The end of the file -/

/-- **C35** The output of an accepted file with tokens ends with its last token, a semicolon, and one line
end; the output of a file without tokens is a line end. -/
theorem C35_end_of_file (eol name src out : Text) (p : Parsed) (h : Formatted eol name src p out) :
    (p.tokens = [] → out = eol) ∧
    (p.tokens ≠ [] → ∃ t text, p.tokens.getLast? = some t ∧ t.kind = .Semicolon ∧ t.text = c!";" ∧
      out = text ++ t.text ++ eol) := by
  obtain ⟨cs, ds, gs, a1, a2, a3, a4, a5, a6, a7, a8⟩ := h.groups
  constructor
  · intro hn
    rw [hn, List.map_eq_nil_iff] at a4
    rw [a8, a4]; rfl
  · intro hn
    have hg : gs ≠ [] := by rintro rfl; exact hn a4.symm
    obtain ⟨gs', g, rfl⟩ := List.eq_nil_or_concat gs |>.resolve_left hg
    have hl : p.tokens.getLast? = some g.tok := by rw [← a4]; simp
    have hk : g.tok.kind = .Semicolon := by
      rcases a7 with rfl | a7
      · exact absurd a3.symm hn
      · have : ∀ (ds : List (Dec × Token)) (k : Tok) (t : Token), (ds.map (·.2)).getLast? = some t →
            lastKind k ds = t.kind := by
          intro ds
          induction ds with
          | nil => intro k t h; cases h
          | cons x ds ih =>
            intro k t h
            cases ds with
            | nil => simp at h; subst h; rfl
            | cons y ds => exact ih x.2.kind t (by simpa using h)
        rw [← this ds .EOF g.tok (by rw [a3]; exact hl)]; exact a7
    obtain ⟨l, hlx, l1, l2, _⟩ := parse_lex h.parsed h.accepted
    have hcl := ((C19_classes _ _ _ hlx).1 g.tok (by
      rw [l1, ← a4]; simp)).1
    rw [hk] at hcl
    have htx : g.tok.text = c!";" := by
      have : some c!";" = some g.tok.text := hcl
      simpa using this.symm
    refine ⟨g.tok, groupsText (gs'.map (PGroup.toGroup eol)) ++
      (lexemesText (g.toGroup eol).comments ++ (g.toGroup eol).white), hl, hk, htx, ?_⟩
    rw [a8]
    simp [groupsText, groupLexemes, Group.lexemes, lexemesText]
    rfl

/-! ### Where lines begin -/

mutual
theorem part_starts {k : SK} {cs : List Tree} {x : Token} {xs : List Token} (hx : leavesF cs = x :: xs) (t : Tree)
    (ht : t.hasEmpty = false) (hp : Part (.node k cs) t) : (k, x) ∈ t.starts := by
  match t with
  | .tok y => cases hp
  | .node k' cs' =>
    simp only [Tree.hasEmpty, Bool.or_eq_false_iff] at ht
    rw [Tree.starts]
    cases hp with
    | here =>
      obtain ⟨y, ys, h1, h2⟩ := startF_leaves cs (by simpa using ht.1) ht.2
      rw [h2]
      rw [hx] at h1
      simp only [List.cons.injEq] at h1
      rw [h1.1]; simp
    | there hc hp =>
      have := partF_starts hx cs' ht.2 _ hc hp
      split
      · exact List.mem_cons_of_mem _ this
      · exact this
theorem partF_starts {k : SK} {cs : List Tree} {x : Token} {xs : List Token} (hx : leavesF cs = x :: xs)
    (ts : List Tree) (ht : hasEmptyF ts = false) : ∀ c ∈ ts, Part (.node k cs) c → (k, x) ∈ startsF ts := by
  match ts with
  | [] => intro c hc; cases hc
  | t :: ts =>
    simp only [hasEmptyF, Bool.or_eq_false_iff] at ht
    intro c hc hp
    rw [startsF]
    by_cases h : c = t
    · rw [h] at hp; exact List.mem_append_left _ (part_starts hx t ht.1 hp)
    · have hc : c ∈ ts := by
        rcases List.mem_cons.mp hc with h' | h'
        · exact absurd h' h
        · exact h'
      exact List.mem_append_right _ (partF_starts hx ts ht.2 c hc hp)
end

/-- The first token of every part of the tree is laid out as the table says. -/
theorem Formatted.part {eol name src out : Text} {p : Parsed} (h : Formatted eol name src p out) :
    ∃ (gs : List PGroup) (tree : Tree), out = groupsText (gs.map (PGroup.toGroup eol)) ++ eol ∧
      gs.map (·.tok) = p.tokens ∧
      buildTree p.tokens p.events = .ok tree ∧
      ∀ k cs x xs, Part (.node k cs) tree → k ≠ .StoredDefinition → leavesF cs = x :: xs →
        ∃ g ∈ gs, g.tok = x ∧ ∃ d prev, GOK fullTabs.ok p.comments prev d g ∧
          ∃ e ∈ fullTabs.entry k, e.2.1 = .none ∨ e.2.1 = d.gap := by
  obtain ⟨cs, ds, gs, a1, a2, a3, a4, a5, a6, a7, a8⟩ := h.groups
  obtain ⟨cs', b1, b2, b3, b4⟩ := accepted_tree h.parsed h.accepted
  have e : cs' = cs := by
    rw [a1] at b1; simpa using b1.symm
  subst e
  refine ⟨gs, _, a8, a4, a1, ?_⟩
  intro k cs0 x xs hp hk hx
  have hs : (k, x) ∈ startsF cs' := by
    cases hp with
    | here => exact absurd rfl hk
    | there hc hp => exact partF_starts hx cs' b3 _ hc hp
  obtain ⟨d, h1, e, h2, h3⟩ := a6 _ hs
  obtain ⟨g, g1, g2, prev, g3⟩ := (GroupsOK.mem ds gs none a5).1 _ h1
  exact ⟨g, g1, g2, d, prev, g3, e, h2, h3⟩

/-- Productions that begin on a new line. -/
def newLine : List SK := [.Element, .ImportClause, .ExtendsClause, .ConstrainingClause, .Equation, .Statement,
  .EquationSection, .AlgorithmSection, .ElementList, .Description, .DescriptionString, .AnnotationClause]

/-- **C37** Every element, equation, statement, description and annotation (and some more productions) starts
on a new line of the output. -/
theorem C37_new_lines (eol name src out : Text) (p : Parsed) (h : Formatted eol name src p out) :
    ∃ (gs : List Group) (tree : Tree), out = groupsText gs ++ eol ∧ gs.map (·.tok) = p.tokens ∧
      buildTree p.tokens p.events = .ok tree ∧
      ∀ k cs x xs, Part (.node k cs) tree → k ∈ newLine → leavesF cs = x :: xs →
        ∃ g ∈ gs, g.tok = x ∧ LineBreak eol g.white := by
  obtain ⟨gs, tree, h1, h2, h3, h4⟩ := h.part
  refine ⟨gs.map (PGroup.toGroup eol), tree, h1, by simpa [PGroup.toGroup, Function.comp_def] using h2, h3, ?_⟩
  intro k cs x xs hp hk hx
  obtain ⟨g, g1, g2, d, prev, g3, e, g4, g5⟩ := h4 k cs x xs hp (by rintro rfl; revert hk; decide) hx
  refine ⟨g.toGroup eol, List.mem_map_of_mem g1, g2, ?_⟩
  have hb : ∀ k ∈ newLine, ∀ e ∈ fullTabs.entry k, e.2.1 = .brk .Required ∨ e.2.1 = .brk .Legal ∨
      e.2.1 = .brk .Illegal := by decide
  have := hb k hk e g4
  rcases g3.white_cases eol with ⟨rfl, _⟩ | ⟨rfl, _⟩ | ⟨b, n, _, h, _⟩
  · simp only [Dec.gap, or_self] at g5; rw [g5] at this; simp at this
  · rcases g5 with g5 | g5 <;> rw [g5] at this <;> simp [Dec.gap] at this
  · exact h

/-! ### Spacing -/

/-- The kinds of binary operators that are always surrounded by white space. -/
def spaced : List Tok := [.Equal, .Assign, .Gre, .Geq, .Les, .Leq, .Neq, .Eq, .Star, .Slash, .DotSlash, .Flex,
  .DotFlex, .And, .Or]

/-- Pairs of tokens for which white space is forbidden or restricted. -/
theorem spacing_table : ∀ k' ∈ Tok.all,
    ((fullTabs.ok .Semicolon .space).has k' = true → k' = .Within) ∧
    (∀ b ∈ [Blank.Required, .Legal, .Illegal], ∀ c ∈ [Tok.Semicolon, .RParen, .RCurly, .RBracket, .Comma],
      (fullTabs.ok c (.brk b)).has k' = false) ∧
    ((fullTabs.ok .RParen .space).has k' = true → k' = .Comma) ∧
    ((fullTabs.ok .RCurly .space).has k' = false) ∧ ((fullTabs.ok .RBracket .space).has k' = false) ∧
    ((fullTabs.ok .Comma .space).has k' = true → k' = .Comma ∨ k' = .LParen) := by
  decide +kernel

/-- Pairs of tokens for which white space is mandatory. -/
theorem spaced_table : ∀ k ∈ Tok.all, ∀ k' ∈ Tok.all, (fullTabs.ok k .none).has k' = true →
    k' ≠ .Comma ∧ k ∉ spaced ∧ k' ∉ spaced ∧
      (k' = .DotStar → k = .Semicolon) ∧ (k = .DotStar → k' = .Identifier) ∧
      (k ∈ [Tok.Plus, .Minus, .DotPlus, .DotMinus] → k' ∈ [Tok.LParen, .LCurly, .LBracket]) := by
  decide +kernel

theorem mem_tok_all (k : Tok) : k ∈ Tok.all := by cases k <;> decide

theorem lineBreak_ne {eol : Text} (he : IsEol eol) {w : Text} (h : LineBreak eol w) : w ≠ [] ∧ w ≠ [' '] := by
  rcases he with rfl | rfl <;> obtain ⟨n, rfl | rfl⟩ := h <;> constructor <;> intro h <;> simp at h

/-- **C38** Spacing, for every token and the token before it:
no white space before a semicolon (one blank after `within`), none before a closing bracket (one blank between
a comma and a closing parenthesis, for a dropped output), none before a comma (but a blank after an opening
parenthesis or comma); some white space after every comma; some before and after `=`, `:=`, relational and
multiplicative operators, powers, `and`, `or` (and `.*` unless it ends an import); an additive operator
directly after another token only after an opening bracket. -/
theorem C38_spacing (eol name src out : Text) (p : Parsed) (h : Formatted eol name src p out) (he : IsEol eol) :
    ∃ gs : List Group, out = groupsText gs ++ eol ∧ gs.map (·.tok) = p.tokens ∧
      EachGroup (fun prev g =>
        (g.tok.kind = .Semicolon → g.white = [] ∨ (g.white = [' '] ∧ ∃ t, prev = some t ∧ t.kind = .Within)) ∧
        (g.tok.kind = .RParen → g.white = [] ∨ (g.white = [' '] ∧ ∃ t, prev = some t ∧ t.kind = .Comma)) ∧
        (g.tok.kind = .RCurly ∨ g.tok.kind = .RBracket → g.white = []) ∧
        (g.tok.kind = .Comma → g.white = [] ∨
          (g.white = [' '] ∧ ∃ t, prev = some t ∧ (t.kind = .Comma ∨ t.kind = .LParen))) ∧
        (∀ t, prev = some t → t.kind = .Comma → g.white ≠ []) ∧
        (g.tok.kind ∈ spaced → g.white ≠ []) ∧
        (∀ t, prev = some t → t.kind ∈ spaced → g.white ≠ []) ∧
        (∀ t, prev = some t → t.kind = .DotStar → g.tok.kind ≠ .Semicolon → g.white ≠ []) ∧
        (g.tok.kind ∈ [Tok.Plus, .Minus, .DotPlus, .DotMinus] → g.white = [] →
          ∃ t, prev = some t ∧ t.kind ∈ [Tok.LParen, .LCurly, .LBracket])) none gs := by
  obtain ⟨cs, ds, gs, a1, a2, a3, a4, a5, a6, a7, a8⟩ := h.groups
  refine ⟨gs.map (PGroup.toGroup eol), a8, by simpa [PGroup.toGroup, Function.comp_def] using a4, ?_⟩
  refine GroupsOK.each ?_ ds gs none a5
  intro prev d g hg
  have hk : (g.toGroup eol).tok = g.tok := rfl
  have hpair := hg.pair
  obtain ⟨t1, t2, t3, t4, t5, t6⟩ := spacing_table (kindOf prev) (mem_tok_all _)
  have t7 := spaced_table g.tok.kind (mem_tok_all _) (kindOf prev) (mem_tok_all _)
  have hprev : ∀ t, prev = some t → kindOf prev = t.kind := by rintro t rfl; rfl
  have hex : ∀ k, k ≠ .EOF → kindOf prev = k → ∃ t, prev = some t ∧ t.kind = k := by
    intro k hk h
    cases prev with
    | none => exact absurd h.symm hk
    | some t => exact ⟨t, rfl, h⟩
  have hex2 : ∀ l : List Tok, .EOF ∉ l → kindOf prev ∈ l → ∃ t, prev = some t ∧ t.kind ∈ l := by
    intro l hl h
    cases prev with
    | none => exact absurd h hl
    | some t => exact ⟨t, rfl, h⟩
  rcases hg.white_cases eol with ⟨rfl, w1, _⟩ | ⟨rfl, w1, _⟩ | ⟨b, n, rfl, w1, _⟩
  · -- no white space
    obtain ⟨s1, s2, s3, s4, s5, s6⟩ := t7 hpair
    rw [hk, w1]
    refine ⟨fun _ => .inl rfl, fun _ => .inl rfl, fun _ => rfl, fun _ => .inl rfl, ?_, ?_, ?_, ?_, ?_⟩
    · intro t ht hc; rw [← hprev t ht] at hc; exact absurd hc s1
    · intro hc; exact absurd hc s2
    · intro t ht hc; rw [← hprev t ht] at hc; exact absurd hc s3
    · intro t ht hc hn; rw [← hprev t ht] at hc; exact absurd (s4 hc) hn
    · intro hc _; exact hex2 _ (by decide) (s6 hc)
  · -- a blank
    simp only [Dec.gap] at hpair
    rw [hk, w1]
    refine ⟨?_, ?_, ?_, ?_, fun _ _ _ => by simp, fun _ => by simp, fun _ _ _ => by simp, fun _ _ _ _ => by simp,
      fun _ h => by simp at h⟩
    · intro hc; rw [hc] at hpair; exact .inr ⟨rfl, hex _ (by decide) (t1 hpair)⟩
    · intro hc; rw [hc] at hpair; exact .inr ⟨rfl, hex _ (by decide) (t3 hpair)⟩
    · rintro (hc | hc) <;> rw [hc] at hpair
      · rw [t4] at hpair; cases hpair
      · rw [t5] at hpair; cases hpair
    · intro hc
      rw [hc] at hpair
      refine .inr ⟨rfl, ?_⟩
      rcases t6 hpair with h | h
      · obtain ⟨t, h1, h2⟩ := hex _ (by decide) h; exact ⟨t, h1, .inl h2⟩
      · obtain ⟨t, h1, h2⟩ := hex _ (by decide) h; exact ⟨t, h1, .inr h2⟩
  · -- a line break
    obtain ⟨n1, n2⟩ := lineBreak_ne he w1
    have hno : ∀ c ∈ [Tok.Semicolon, .RParen, .RCurly, .RBracket, .Comma], g.tok.kind ≠ c := by
      intro c hc hcc
      have := t2 b (by cases b <;> simp) c hc
      simp only [Dec.gap, hcc] at hpair
      rw [this] at hpair; cases hpair
    rw [hk]
    refine ⟨?_, ?_, ?_, ?_, fun _ _ _ => n1, fun _ => n1, fun _ _ _ => n1, fun _ _ _ _ => n1,
      fun _ h => absurd h n1⟩
    · intro hc; exact absurd hc (hno _ (by simp))
    · intro hc; exact absurd hc (hno _ (by simp))
    · rintro (hc | hc) <;> exact absurd hc (hno _ (by simp))
    · intro hc; exact absurd hc (hno _ (by simp))

/-! ### Empty lines -/

theorem section_table : ∀ k' ∈ Tok.all, ∀ k ∈ [Tok.Public, .Protected, .External, .Equation, .Algorithm],
    ∀ gp ∈ [Gap.none, .space, .brk .Legal, .brk .Illegal], (fullTabs.ok k gp).has k' = true →
      k' = .Initial ∧ gp = .space ∧ (k = .Equation ∨ k = .Algorithm) := by
  decide +kernel

/-- **C42** The keywords `public`, `protected`, `external`, `equation` and `algorithm` (the last two unless
`initial` stands before them) are preceded by an empty line: some white space between the previous token and
the keyword consists of two line ends and indentation. -/
theorem C42_sections (eol name src out : Text) (p : Parsed) (h : Formatted eol name src p out) :
    ∃ gs : List Group, out = groupsText gs ++ eol ∧ gs.map (·.tok) = p.tokens ∧
      EachGroup (fun prev g =>
        g.tok.kind ∈ [Tok.Public, .Protected, .External, .Equation, .Algorithm] →
        (∃ n, ∃ x ∈ g.lexemes, x.1 = eol ++ eol ++ blanks (2 * n)) ∨
        (g.white = [' '] ∧ (g.tok.kind = .Equation ∨ g.tok.kind = .Algorithm) ∧
          ∃ t, prev = some t ∧ t.kind = .Initial)) none gs := by
  obtain ⟨cs, ds, gs, a1, a2, a3, a4, a5, a6, a7, a8⟩ := h.groups
  refine ⟨gs.map (PGroup.toGroup eol), a8, by simpa [PGroup.toGroup, Function.comp_def] using a4, ?_⟩
  refine GroupsOK.each ?_ ds gs none a5
  intro prev d g hg hk
  have hk : g.tok.kind ∈ [Tok.Public, .Protected, .External, .Equation, .Algorithm] := hk
  have hpair := hg.pair
  have htab := section_table (kindOf prev) (mem_tok_all _) g.tok.kind hk
  have hreq : ∀ n, d = .brk .Required n → ∃ n, ∃ x ∈ (g.toGroup eol).lexemes, x.1 = eol ++ eol ++ blanks (2 * n) := by
    intro n hd
    have hm := (hg.brk _ _ hd).2.2.1 rfl
    have : wtext eol (some (.bl n)) = eol ++ eol ++ blanks (2 * n) := by
      simp [wtext, Piece.text, indentText_eq]
    simp only [PGroup.whites, List.mem_append, List.mem_map, List.mem_singleton] at hm
    refine ⟨n, ?_⟩
    rcases hm with ⟨s, hs, hm⟩ | hm
    · refine ⟨(wtext eol s.1, s.2), ?_, by rw [← this, hm]⟩
      exact List.mem_append_left _ (List.mem_map_of_mem (f := fun s : Seg => (wtext eol s.1, s.2)) hs)
    · exact ⟨(wtext eol g.white, g.tok), List.mem_append_right _ (by simp [PGroup.toGroup]), by rw [← this, hm]⟩
  cases d with
  | none => have := (htab .none (by simp) hpair).2.1; cases this
  | space =>
    obtain ⟨h1, _, h2⟩ := htab .space (by simp) hpair
    refine .inr ⟨?_, h2, ?_⟩
    · simp [PGroup.toGroup, hg.space rfl, wtext, Piece.text]
    · cases prev with
      | none => cases h1
      | some t => exact ⟨t, rfl, h1⟩
  | brk b n =>
    cases b with
    | Required => exact .inl (hreq n rfl)
    | Legal => have := (htab (.brk .Legal) (by simp) hpair).2.1; cases this
    | Illegal => have := (htab (.brk .Illegal) (by simp) hpair).2.1; cases this

end Mofmt
