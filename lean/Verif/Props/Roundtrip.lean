import Verif.Proofs.Relex
import Verif.Proofs.TreeMap
import Verif.Props.Layout
import Verif.Props.Parser
/-
Reading the formatted text back: C01, C02, C04, C07.
-/
namespace Mofmt
open Lexical

/-- What is known of the lexemes of the output if line comments end their lines. -/
theorem Formatted.chain_of {eol name src out : Text} {p : Parsed} (h : Formatted eol name src p out)
    (hL : LineCommentsEnd p.comments) {ds : List (Dec × Token)} {gs : List PGroup} (a3 : ds.map (·.2) = p.tokens)
    (a4 : gs.map (·.tok) = p.tokens) (a5 : GroupsOK fullTabs.ok p.comments none ds gs) :
    Chain none (gs.flatMap PGroup.segs) ∧
      ((gs.flatMap PGroup.segs).map (·.2)).filter (fun t => !isComment t) = p.tokens ∧
      (((gs.flatMap PGroup.segs).map (·.2)).filter isComment).Sublist p.comments ∧
      (∀ s ∈ gs.flatMap PGroup.segs, s.2 ∈ p.tokens ++ p.comments) ∧
      (∀ x ∈ (gs.flatMap PGroup.segs).map (segLex eol), SameLine x.1 ∨ LineBreak eol x.1) ∧
      ∀ s, (gs.flatMap PGroup.segs).getLast? = some s → s.2 ∈ p.tokens := by
  obtain ⟨lx, hl, l1, l2, l3⟩ := parse_lex h.parsed h.accepted
  obtain ⟨all, o1, o2, o3, o4⟩ := lexed_order hl
  have hcm : ∀ c ∈ p.comments, c ∈ all ∧ isComment c = true := by
    intro c hc; rw [← l2, o2] at hc; exact List.mem_filter.mp hc
  have htm : ∀ t ∈ p.tokens, t ∈ all ∧ isComment t = false := by
    intro t ht; rw [← l1, o1] at ht; have := List.mem_filter.mp ht; exact ⟨this.1, by simpa using this.2⟩
  have hO : Order p.tokens p.comments := by
    refine ⟨?_, fun c hc => o4 c (hcm c hc).1, ?_, ?_⟩
    · rw [← l2, o2]; exact o3.sublist List.filter_sublist
    · intro t ht c hc hi
      rcases pairwise_two o3 (htm t ht).1 (hcm c hc).1 with rfl | h | h
      · omega
      · exact h.2
      · have := h.1; omega
    · intro t ht
      refine ⟨?_, ?_⟩
      · intro hk
        have := (htm t ht).2
        simp [isComment, hk] at this
      · intro hk
        have := ((C19_classes _ _ _ hl).1 t (l1 ▸ ht)).1
        rw [hk] at this
        cases this
  have hch := GroupsOK.chain hO hL ds gs none a5 (fun x hx => a3 ▸ List.mem_map_of_mem hx) (by simp)
  obtain ⟨f1, f2, f3⟩ := h.filters a3 a4 a5
  have hls : (groupLexemes (gs.map (PGroup.toGroup eol))).map (·.2) = (gs.flatMap PGroup.segs).map (·.2) := by
    rw [groupLexemes_segs, List.map_map]; rfl
  rw [hls] at f1 f2
  refine ⟨hch, f1, f2, ?_, groupLexemes_segs eol gs ▸ f3, ?_⟩
  · intro s hs
    have hs' : s.2 ∈ (gs.flatMap PGroup.segs).map (·.2) := List.mem_map_of_mem hs
    rw [List.mem_append]
    cases hc : isComment s.2 with
    | false => left; rw [← f1]; exact List.mem_filter.mpr ⟨hs', by simp [hc]⟩
    | true => right; exact f2.mem (List.mem_filter.mpr ⟨hs', hc⟩)
  · intro s hs
    rcases List.eq_nil_or_concat gs with rfl | ⟨gs', g, rfl⟩
    · cases hs
    · simp [PGroup.segs] at hs
      subst hs
      rw [← a4]; simp

theorem Formatted.chain {eol name src out : Text} {p : Parsed} (h : Formatted eol name src p out)
    (hL : LineCommentsEnd p.comments) :
    ∃ l : List Seg, out = lexemesText (l.map (segLex eol)) ++ eol ∧ Chain none l ∧
      (l.map (·.2)).filter (fun t => !isComment t) = p.tokens ∧
      ((l.map (·.2)).filter isComment).Sublist p.comments ∧
      (∀ s ∈ l, s.2 ∈ p.tokens ++ p.comments) ∧
      (∀ x ∈ l.map (segLex eol), SameLine x.1 ∨ LineBreak eol x.1) ∧
      ∀ s, l.getLast? = some s → s.2 ∈ p.tokens := by
  obtain ⟨cs, ds, gs, a1, a2, a3, a4, a5, a6, a7, a8⟩ := h.groups
  exact ⟨gs.flatMap PGroup.segs, by rw [a8, groupsText, groupLexemes_segs], h.chain_of hL a3 a4 a5⟩

theorem white_ws {eol w : Text} (he : IsEol eol) (h : SameLine w ∨ LineBreak eol w) : w.all isWs = true := by
  have hb : ∀ n, (blanks n).all isWs = true := by
    intro n
    rw [List.all_eq_true]
    intro c hc
    rw [(List.mem_replicate.mp hc).2]; rfl
  have h2 : eol.all isWs = true := by rcases he with rfl | rfl <;> decide
  rcases h with (rfl | rfl) | ⟨n, rfl | rfl⟩
  · rfl
  · rfl
  · simp only [List.all_append, hb, h2]; rfl
  · simp only [List.all_append, hb, h2]; rfl

theorem Formatted.class {eol name src out : Text} {p : Parsed} (h : Formatted eol name src p out) :
    ∀ t ∈ p.tokens ++ p.comments, Class t.kind t.text ∧ asciiEnd t.text = true := by
  obtain ⟨lx, hl, l1, l2, l3⟩ := parse_lex h.parsed h.accepted
  have hcl := C19_classes _ _ _ hl
  have ha := lex_asciiEnd hl
  rw [l1, l2] at hcl ha
  intro t ht
  refine ⟨?_, ha t ht⟩
  rcases List.mem_append.mp ht with ht | ht
  · exact (hcl.1 t ht).1
  · exact (hcl.2 t ht).1

/-- Reading the output back. -/
theorem Formatted.relex {eol name src out : Text} {p : Parsed} (h : Formatted eol name src p out)
    (he : IsEol eol) (hL : LineCommentsEnd p.comments) (name' : Text) :
    ∃ l, lex name' out = .ok l ∧ l.errors = [] ∧ l.tokens.map kindText = p.tokens.map kindText ∧
      (l.comments.map kindText).Sublist (p.comments.map kindText) := by
  obtain ⟨segs, h1, h2, h3, h4, h5, h6, h7⟩ := h.chain hL
  have hc : ∀ s ∈ segs, Class s.2.kind s.2.text ∧ asciiEnd s.2.text = true := fun s hs => h.class _ (h5 s hs)
  obtain ⟨l, l1, l2, l3, l4⟩ := lex_lexemes (name := name') (ls := segs.map (segLex eol)) (tail := eol)
    (fun x hx => white_ws he (h6 x hx))
    (fun x hx => by obtain ⟨s, hs, rfl⟩ := List.mem_map.mp hx; exact (hc s hs).1)
    (fun x hx => by obtain ⟨s, hs, rfl⟩ := List.mem_map.mp hx; exact (hc s hs).2)
    (by rcases he with rfl | rfl <;> decide)
    (Chain.sep he segs none h2 (fun s hs => (hc s hs).1))
  have e : (segs.map (segLex eol)).map (·.2) = segs.map (·.2) := by rw [List.map_map]; rfl
  rw [e] at l3 l4
  rw [h3] at l3
  refine ⟨l, h1 ▸ l1, l2, l3, ?_⟩
  rw [l4]
  exact h4.map kindText

/-- **C01** (part) If line comments end their lines, reading the output gives no lexical errors and the tokens
of the source, with their kinds and texts.  Missing: sources with a carriage return that is not followed by a
line feed after a line comment, for which it is false. -/
theorem C01_tokens_preserved_partial (eol name src out name' : Text) (p : Parsed)
    (h : Formatted eol name src p out) (he : IsEol eol) (hL : LineCommentsEnd p.comments) :
    ∃ l, lex name' out = .ok l ∧ l.errors = [] ∧ l.tokens.map kindText = p.tokens.map kindText := by
  obtain ⟨l, h1, h2, h3, _⟩ := h.relex he hL name'
  exact ⟨l, h1, h2, h3⟩

/-- Every source in which carriage returns stand only before line feeds is such a source. -/
theorem C01_no_lone_cr (name src : Text) (p : Parsed) (h : parse name src .StoredDefinition = .ok p)
    (he : p.errors = []) (hn : NoLoneCr src) : LineCommentsEnd p.comments := by
  obtain ⟨l, hl, _, h2, _⟩ := parse_lex h he
  rw [← h2]
  exact line_comments_end hl hn

/-- **C02** (part) Under the same hypothesis the output is accepted, with the same events, and the tree built
from it differs from the tree of the source only in the places of the tokens. -/
theorem C02_same_tree_partial (eol name src out name' : Text) (p : Parsed)
    (h : Formatted eol name src p out) (he : IsEol eol) (hL : LineCommentsEnd p.comments) :
    ∃ p', parse name' out .StoredDefinition = .ok p' ∧ p'.errors = [] ∧ p'.events = p.events ∧
      ∃ t t', buildTree p.tokens p.events = .ok t ∧ buildTree p'.tokens p'.events = .ok t' ∧
        t'.map bare = t.map bare := by
  obtain ⟨l, h1, h2, h3, _⟩ := h.relex he hL name'
  obtain ⟨lx, hl, l1, l2, l3⟩ := parse_lex h.parsed h.accepted
  have hp := h.parsed
  unfold parse at hp
  rw [hl, Res.bind_ok] at hp
  obtain ⟨x, hx, hp⟩ := Res.bind_eq_ok.1 hp
  obtain ⟨evs, errs⟩ := x
  simp only [Res.ok.injEq] at hp
  have herr : errs = [] := by
    have := h.accepted
    rw [← hp] at this
    exact (List.append_eq_nil_iff.mp this).2
  have hev : p.events = evs := by rw [← hp]
  have hk : lx.tokens.map (·.kind) = l.tokens.map (·.kind) := by
    have := congrArg (List.map Prod.fst) h3
    simp only [List.map_map] at this
    rw [l1]; exact this.symm
  obtain ⟨errs', h5, h6⟩ := (C24_only_kinds name name' lx.tokens l.tokens .StoredDefinition hk).1 _ _ hx
  have he' : errs' = [] := by rw [herr] at h6; simpa using h6
  obtain ⟨t, _, _, ht, _⟩ := C03_formatting_succeeds eol name src p h.parsed h.accepted
  refine ⟨⟨l.tokens, l.comments, evs, []⟩, ?_, rfl, hev.symm, t, ?_⟩
  · unfold parse
    rw [h1, Res.bind_ok, h5, Res.bind_ok, h2, he']; rfl
  · have hb : l.tokens.map bare = p.tokens.map bare := by
      have := congrArg (List.map fun x : Tok × Text => (⟨0, x.2, x.1, ⟨0, 0, 0⟩, ⟨0, 0, 0⟩⟩ : Token)) h3
      rw [List.map_map, List.map_map] at this
      exact this
    have b1 := buildTree_map bare p.tokens p.events
    have b2 := buildTree_map bare l.tokens p.events
    rw [hb, b1, ht] at b2
    rw [← hev]
    cases hb2 : buildTree l.tokens p.events with
    | ok t' =>
      rw [hb2] at b2
      simp only [Res.map_ok, Res.ok.injEq] at b2
      exact ⟨t', ht, rfl, b2.symm⟩
    | panic q => rw [hb2] at b2; cases b2
    | fuel => rw [hb2] at b2; cases b2

/-- **C04** (part) Under the same hypothesis the comments found in the output are comments of the source with
their exact texts, in the same order, none twice. -/
theorem C04_comments_partial (eol name src out name' : Text) (p : Parsed)
    (h : Formatted eol name src p out) (he : IsEol eol) (hL : LineCommentsEnd p.comments) :
    ∃ l, lex name' out = .ok l ∧ (l.comments.map kindText).Sublist (p.comments.map kindText) := by
  obtain ⟨l, h1, _, _, h4⟩ := h.relex he hL name'
  exact ⟨l, h1, h4⟩

theorem Chain.line : ∀ (l : List Seg) (o : Option Token), Chain o l → ∀ a s b, l = a ++ s :: b →
    s.2.kind = .LineComment → ∀ s' r, b = s' :: r → isBrk s'.1 = true
  | l, o, h, [], s, b, hl, hk, s', r, hb => by
    subst hb
    subst hl
    have : Next s.2 s' := h.2.1
    rcases this with h | ⟨_, h⟩ | ⟨_, _, h, _⟩
    · exact h
    · exact absurd hk h
    · exact absurd hk h
  | l, o, h, x :: a, s, b, hl, hk, s', r, hb => by
    subst hl
    exact Chain.line (a ++ s :: b) (some x.2) h.2 a s b rfl hk s' r hb

/-- **C07** (part) Under the same hypothesis every line comment in the output is followed by a line break and a
further lexeme. -/
theorem C07_line_comments_partial (eol name src out : Text) (p : Parsed)
    (h : Formatted eol name src p out) (hL : LineCommentsEnd p.comments) :
    ∃ ls : List (Text × Token), out = lexemesText ls ++ eol ∧
      (ls.map (·.2)).filter (fun t => !isComment t) = p.tokens ∧
      ((ls.map (·.2)).filter isComment).Sublist p.comments ∧
      ∀ a x b, ls = a ++ x :: b → x.2.kind = .LineComment →
        ∃ y r, b = y :: r ∧ LineBreak eol y.1 := by
  obtain ⟨segs, h1, h2, h3, h4, h5, h6, h7⟩ := h.chain hL
  have e : (segs.map (segLex eol)).map (·.2) = segs.map (·.2) := by rw [List.map_map]; rfl
  refine ⟨segs.map (segLex eol), h1, e ▸ h3, e ▸ h4, ?_⟩
  intro a x b hx hk
  obtain ⟨a', r', rfl, rfl, hr⟩ := List.map_eq_append_iff.mp hx
  obtain ⟨s, b', rfl, rfl, rfl⟩ := List.map_eq_cons_iff.mp hr
  cases b' with
  | nil =>
    exfalso
    have hm := h7 s (by simp)
    obtain ⟨lx, hl, l1, l2, l3⟩ := parse_lex h.parsed h.accepted
    have := ((C19_classes _ _ _ hl).1 s.2 (l1 ▸ hm)).2
    simp [isComment] at this
    exact this.1 hk
  | cons s' r => exact ⟨segLex eol s', r.map (segLex eol), rfl, isBrk_text (Chain.line _ _ h2 _ _ _ rfl hk _ _ rfl)⟩

/-! ### Cases meeting the hypotheses -/

/-- test for `LineCommentsEnd` -/
def lineCommentsEndB (cs : List Token) : Bool :=
  cs.all fun c => !(c.kind == .LineComment) ||
    cs.all fun c' => !decide (c.idx < c'.idx) || decide (c.stop.line < c'.start.line)

theorem lineCommentsEndB_sound {cs : List Token} (h : lineCommentsEndB cs = true) : LineCommentsEnd cs := by
  intro c hc hk c' hc' hi
  have h1 := List.all_eq_true.1 h c hc
  simp only [hk, beq_self_eq_true, Bool.not_true, Bool.false_or] at h1
  have h2 := List.all_eq_true.1 h1 c' hc'
  simpa [hi] using h2

/-- a small file with three comments, also one on the line of another one -/
def exComments : Text := c!"model A // a\n Real x; /* b */ // c\nend A;\n"

set_option maxRecDepth 4000 in
example : ∃ p out, Formatted c!"\n" c!"f" exComments p out ∧ p.comments.length = 3 ∧ LineCommentsEnd p.comments := by
  have h : (pipeline c!"f" exComments).any (fun x => x.1.errors.isEmpty && x.1.comments.length == 3 &&
      lineCommentsEndB x.1.comments) = true := by decide_cbv
  obtain ⟨⟨p, t, m⟩, hx, h⟩ := pipeline_any h
  obtain ⟨h1, h2, h3⟩ := pipeline_eq hx
  simp only [Bool.and_eq_true, List.isEmpty_iff, beq_iff_eq] at h
  obtain ⟨out, ho⟩ := C03_formatted c!"\n" _ _ p h1 h.1.1
  exact ⟨p, out, ho, h.1.2, lineCommentsEndB_sound h.2⟩

/-- test for `NoLoneCr` -/
def noLoneCrB : Text → Bool
  | [] => true
  | c :: cs => (!(c == '\r') || cs.head? == some '\n') && noLoneCrB cs

theorem noLoneCrB_sound : ∀ {s : Text}, noLoneCrB s = true → NoLoneCr s
  | _, h, [], b, hs => by subst hs; simp [noLoneCrB] at h; exact h.1
  | _, h, c :: a, b, hs => by
    subst hs
    simp only [List.cons_append, noLoneCrB, Bool.and_eq_true] at h
    exact noLoneCrB_sound h.2 a b rfl

example : NoLoneCr c!"// a\r\nmodel A end A;\r\n" := noLoneCrB_sound (by decide)

/-! ### Lone carriage returns -/

/-- A carriage return ends the line comment but not the line. -/
def exCr : Text := c!"model A\nReal x; // a\r/* b\n*/\nend A;\n"

/-- what is written back for it: the line comment has swallowed the beginning of the other one -/
def exCrOut : Text := c!"model A\n\n  Real x; // a /* b\n*/\n\nend A;\n"

theorem exCr_formatted : ∃ p, Formatted c!"\n" c!"f" exCr p exCrOut ∧
    p.comments.map kindText = [(.LineComment, c!"// a"), (.BlockComment, c!"/* b\n*/")] := by
  refine ⟨match parse c!"f" exCr .StoredDefinition with | .ok p => p | _ => ⟨[], [], [], []⟩, ⟨?_, ?_, ?_⟩, ?_⟩
  · decide_cbv
  · decide_cbv
  · exact ⟨c!"model A\n\n  Real x; // a /* b\n*/\n\nend A;", by decide_cbv, rfl⟩
  · decide_cbv

/-- **C01** is false: the output for `exCr` has other tokens. -/
theorem C01_false : ∃ p, Formatted c!"\n" c!"f" exCr p exCrOut ∧ p.tokens.length = 8 ∧
    ∃ l, lex c!"f" exCrOut = .ok l ∧ l.tokens.length = 10 := by
  obtain ⟨p, hp, _⟩ := exCr_formatted
  refine ⟨p, hp, ?_, match lex c!"f" exCrOut with | .ok l => l | _ => ⟨[], [], []⟩, by decide_cbv, by decide_cbv⟩
  have : (match parse c!"f" exCr .StoredDefinition with | .ok p => p.tokens.length | _ => 0) = 8 := by decide_cbv
  rw [hp.parsed] at this
  exact this

/-- **C02** is false: the parser panics on the output for `exCr`. -/
theorem C02_false : ∃ p, Formatted c!"\n" c!"f" exCr p exCrOut ∧
    parse c!"f" exCrOut .StoredDefinition = .panic .stuck := by
  obtain ⟨p, hp, _⟩ := exCr_formatted
  exact ⟨p, hp, by decide_cbv⟩

/-- **C04** is false: the output for `exCr` has a comment that the source has not. -/
theorem C04_false : ∃ p, Formatted c!"\n" c!"f" exCr p exCrOut ∧
    ∃ l, lex c!"f" exCrOut = .ok l ∧ ∃ c ∈ l.comments.map kindText, c ∉ p.comments.map kindText := by
  obtain ⟨p, hp, hc⟩ := exCr_formatted
  refine ⟨p, hp, match lex c!"f" exCrOut with | .ok l => l | _ => ⟨[], [], []⟩, by decide_cbv,
    (.LineComment, c!"// a /* b"), by decide_cbv, ?_⟩
  rw [hc]
  decide

/-- **C07** is false: in the output for `exCr` the line comment of the source is followed by a blank and the
other comment. -/
theorem C07_false : ∃ p, Formatted c!"\n" c!"f" exCr p exCrOut ∧
    ∃ c d, p.comments = [c, d] ∧ c.kind = .LineComment ∧ c.text ++ ' ' :: d.text <:+: exCrOut := by
  obtain ⟨p, hp, hc⟩ := exCr_formatted
  refine ⟨p, hp, ?_⟩
  match hcs : p.comments with
  | [] => rw [hcs] at hc; cases hc
  | [_] => rw [hcs] at hc; simp at hc
  | _ :: _ :: _ :: _ => rw [hcs] at hc; simp at hc
  | [c, d] =>
    rw [hcs] at hc
    simp only [List.map_cons, kindText, List.cons.injEq, Prod.mk.injEq] at hc
    refine ⟨c, d, rfl, hc.1.1, ?_⟩
    rw [hc.1.2, hc.2.1.2]
    exact ⟨c!"model A\n\n  Real x; ", c!"\n\nend A;\n", rfl⟩

/-! ### Comments that are kept -/

/-- every group with its decision and the token before it -/
theorem GroupsOK.prev {ok : Tok → Gap → KSet} {C T : List Token} :
    ∀ (ds : List (Dec × Token)) (gs : List PGroup) (prev : Option Token), GroupsOK ok C prev ds gs →
      (ds.map (·.2)).Pairwise (fun a b => a.idx < b.idx) → (∀ x ∈ ds, x.2 ∈ T) →
      (∀ t, prev = some t → t ∈ T ∧ ∀ x ∈ ds, t.idx < x.2.idx) →
      ∀ x ∈ ds, ∃ g ∈ gs, g.tok = x.2 ∧ ∃ prev', GOK ok C prev' x.1 g ∧
        ∀ t, prev' = some t → t ∈ T ∧ t.idx < x.2.idx
  | [], _, _, _, _, _, _, x, hx => by cases hx
  | _ :: _, [], _, h, _, _, _, _, _ => h.elim
  | y :: ds, g :: gs, prev, h, hs, hT, hp, x, hx => by
    simp only [List.map_cons, List.pairwise_cons] at hs
    by_cases hxy : x = y
    · subst hxy
      exact ⟨g, List.mem_cons_self, h.2.1, prev, h.1,
        fun t ht => ⟨(hp t ht).1, (hp t ht).2 x List.mem_cons_self⟩⟩
    · have hx : x ∈ ds := by
        rcases List.mem_cons.mp hx with h | h
        · exact absurd h hxy
        · exact h
      obtain ⟨g', a, b⟩ := GroupsOK.prev ds gs (some y.2) h.2.2 hs.2 (fun z hz => hT z (List.mem_cons_of_mem _ hz))
        (by
          rintro t ⟨⟩
          exact ⟨hT y List.mem_cons_self, fun z hz => hs.1 z.2 (List.mem_map_of_mem hz)⟩) x hx
      exact ⟨g', List.mem_cons_of_mem _ a, b⟩

/-- No comment is printed if a token is not on a new line. -/
theorem brk_only : ∀ k ∈ [Tok.Public, .Protected, .External, .Annotation, .Constrainedby, .Import, .ElseWhen,
    .Return], ∀ k' ∈ Tok.all, (fullTabs.ok k .space).has k' = false ∧ (fullTabs.ok k .none).has k' = false := by
  decide +kernel

/-- Keywords that always begin a new line. -/
def lineKeywords : List Tok := [.Public, .Protected, .External, .Annotation, .Constrainedby, .Import, .ElseWhen,
  .Return]

/-- The comment stands in the source between the token and the token before it. -/
def StandsBefore (p : Parsed) (c x : Token) : Prop :=
  c ∈ p.comments ∧ c.idx < x.idx ∧ ∀ t ∈ p.tokens, t.idx < x.idx → t.idx < c.idx

/-- **C06** (part) No comment is lost that stands directly before an element, an import or extends clause, an
equation, a statement, a section, a description, an annotation (`newLine`) or before one of the keywords
`lineKeywords`.  Missing: comments before other tokens and after the last token, which can be lost. -/
theorem C06_comments_kept_partial (eol name src out : Text) (p : Parsed) (h : Formatted eol name src p out) :
    ∃ (ls : List (Text × Token)) (tree : Tree), out = lexemesText ls ++ eol ∧
      (ls.map (·.2)).filter (fun t => !isComment t) = p.tokens ∧
      ((ls.map (·.2)).filter isComment).Sublist p.comments ∧
      buildTree p.tokens p.events = .ok tree ∧
      (∀ k cs x xs, Part (.node k cs) tree → k ∈ newLine → leavesF cs = x :: xs →
        ∀ c, StandsBefore p c x → c ∈ ls.map (·.2)) ∧
      (∀ x ∈ p.tokens, x.kind ∈ lineKeywords → ∀ c, StandsBefore p c x → c ∈ ls.map (·.2)) := by
  obtain ⟨cs, ds, gs, a1, a2, a3, a4, a5, a6, a7, a8⟩ := h.groups
  obtain ⟨cs', b1, b2, b3, b4⟩ := accepted_tree h.parsed h.accepted
  have e : cs' = cs := by
    rw [a1] at b1; simpa using b1.symm
  subst e
  obtain ⟨f1, f2, _⟩ := h.filters a3 a4 a5
  obtain ⟨l, hl, l1, l2, l3⟩ := parse_lex h.parsed h.accepted
  obtain ⟨all, o1, o2, o3, o4⟩ := lexed_order hl
  have hts : (ds.map (·.2)).Pairwise (fun a b => a.idx < b.idx) := by
    rw [a3, ← l1, o1]; exact (o3.sublist List.filter_sublist).imp (fun h => h.1)
  have hpr := GroupsOK.prev (T := p.tokens) ds gs none a5 hts (fun x hx => a3 ▸ List.mem_map_of_mem hx) (by simp)
  have key : ∀ d x, (d, x) ∈ ds → (∀ g prev, GOK fullTabs.ok p.comments prev d g → g.tok = x → ∃ b n, d = .brk b n) →
      ∀ c, StandsBefore p c x → c ∈ (groupLexemes (gs.map (PGroup.toGroup eol))).map (·.2) := by
    intro d x hx hd c hc
    obtain ⟨g, g1, g2, prev, g3, g4⟩ := hpr _ hx
    obtain ⟨b, n, hd⟩ := hd g prev g3 g2
    have hg := (g3.brk b n hd).2.1
    have hc' : c ∈ commentsFrom (indexAfter prev) g.tok.idx p.comments := by
      simp only [commentsFrom, List.mem_filter, decide_eq_true_eq]
      refine ⟨hc.1, ?_, by rw [g2]; exact hc.2.1⟩
      cases prev with
      | none => exact Nat.zero_le _
      | some t =>
        have := hc.2.2 t (g4 t rfl).1 (g4 t rfl).2
        simp only [indexAfter]; omega
    rw [← hg] at hc'
    rw [groupLexemes_segs, List.map_map]
    obtain ⟨s, hs, rfl⟩ := List.mem_map.mp hc'
    refine List.mem_map.mpr ⟨s, List.mem_flatMap.mpr ⟨g, g1, ?_⟩, rfl⟩
    simp [PGroup.segs, hs]
  refine ⟨groupLexemes (gs.map (PGroup.toGroup eol)), _, a8, f1, f2, a1, ?_, ?_⟩
  · intro k cs0 x xs hp hk hx c hc
    have hne : k ≠ .StoredDefinition := by rintro rfl; revert hk; decide
    have hs : (k, x) ∈ startsF cs' := by
      cases hp with
      | here => exact absurd rfl hne
      | there hc hp => exact partF_starts hx cs' b3 _ hc hp
    obtain ⟨d, h1, e, h2, h3⟩ := a6 _ hs
    refine key d x h1 ?_ c hc
    intro g prev g3 g2
    have hb : ∀ k ∈ newLine, ∀ e ∈ fullTabs.entry k, e.2.1 = .brk .Required ∨ e.2.1 = .brk .Legal ∨
        e.2.1 = .brk .Illegal := by decide
    have := hb k hk e h2
    cases d with
    | none => simp only [Dec.gap, or_self] at h3; rw [h3] at this; simp at this
    | space => rcases h3 with h3 | h3 <;> rw [h3] at this <;> simp [Dec.gap] at this
    | brk b n => exact ⟨b, n, rfl⟩
  · intro x hx hk c hc
    rw [← a3] at hx
    obtain ⟨⟨d, x'⟩, hx', hxx⟩ := List.mem_map.mp hx
    simp only at hxx
    subst hxx
    refine key d x' hx' ?_ c hc
    intro g prev g3 g2
    have htab := brk_only x'.kind hk (kindOf prev) (mem_tok_all _)
    have hpair := g3.pair
    rw [g2] at hpair
    cases d with
    | none => simp only [Dec.gap] at hpair; rw [htab.2] at hpair; cases hpair
    | space => simp only [Dec.gap] at hpair; rw [htab.1] at hpair; cases hpair
    | brk b n => exact ⟨b, n, rfl⟩

/-- Comments that are lost: in the header, within a line, at the end. -/
def exLost : Text := c!"// a\nmodel A\n Real /* b */ x;\nend A; // c\n"

/-- **C06** is false: none of the three comments of `exLost` is in the output. -/
theorem C06_false : ∃ p, Formatted c!"\n" c!"f" exLost p c!"model A\n\n  Real x;\n\nend A;\n" ∧
    p.comments.length = 3 := by
  refine ⟨match parse c!"f" exLost .StoredDefinition with | .ok p => p | _ => ⟨[], [], [], []⟩, ⟨?_, ?_, ?_⟩, ?_⟩
  · decide_cbv
  · decide_cbv
  · exact ⟨c!"model A\n\n  Real x;\n\nend A;", by decide_cbv, rfl⟩
  · decide_cbv

/-- A comment before `public`, which is kept. -/
def exKept : Text := c!"model A // a\n public Real x; end A;\n"

example : ∃ p out, Formatted c!"\n" c!"f" exKept p out ∧ ∃ c x, x ∈ p.tokens ∧ x.kind ∈ lineKeywords ∧
    StandsBefore p c x := by
  refine ⟨match parse c!"f" exKept .StoredDefinition with | .ok p => p | _ => ⟨[], [], [], []⟩,
    c!"model A // a\n\npublic\n\n  Real x;\n\nend A;\n",
    ⟨by decide_cbv, by decide_cbv, c!"model A // a\n\npublic\n\n  Real x;\n\nend A;", by decide_cbv, rfl⟩,
    (match parse c!"f" exKept .StoredDefinition with | .ok p => p.comments.headD default | _ => default),
    (match parse c!"f" exKept .StoredDefinition with | .ok p => p.tokens.getD 2 default | _ => default), ?_, ?_, ?_⟩
  · decide_cbv
  · decide_cbv
  · have h : (match parse c!"f" exKept .StoredDefinition with
        | .ok p => decide (p.comments.headD default ∈ p.comments) &&
          decide ((p.comments.headD default).idx < (p.tokens.getD 2 default).idx) &&
          p.tokens.all fun t => decide (t.idx < (p.tokens.getD 2 default).idx →
            t.idx < (p.comments.headD default).idx)
        | _ => false) = true := by decide_cbv
    revert h
    cases parse c!"f" exKept .StoredDefinition with
    | ok p =>
      simp only [StandsBefore, Bool.and_eq_true, decide_eq_true_eq, List.all_eq_true]
      exact fun h => ⟨h.1.1, h.1.2, h.2⟩
    | _ => intro h; cases h

end Mofmt
