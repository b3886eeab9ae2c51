import Verif.Proofs.JoinText
import Verif.Props.Blanks
/-
C58: formatting one file after another.
-/
namespace Mofmt
open Lexical

theorem map_filter_comment {f : Token → Token} (hk : ∀ t, (f t).kind = t.kind) (l : List Token) :
    (l.filter isComment).map f = (l.map f).filter isComment ∧
    (l.filter fun t => !isComment t).map f = (l.map f).filter fun t => !isComment t := by
  have h : ∀ t, isComment (f t) = isComment t := fun t => by simp only [isComment, hk]
  constructor
  · rw [List.filter_map]
    congr 1
    exact List.filter_congr fun t _ => by simp [h]
  · rw [List.filter_map]
    congr 1
    exact List.filter_congr fun t _ => by simp [h]

theorem reading_map {f : Token → Token} (hk : ∀ t, (f t).kind = t.kind) {k : SK} {toks : List Token} {cs : List Tree}
    (h : Reading k toks cs) : Reading k (toks.map f) (mapTrees f cs) where
  conforms := map_conforms hk _ h.conforms
  full := by rw [mapF_hasEmpty]; exact h.full
  leaves := by rw [mapF_leaves, h.leaves]

theorem count_map {f : Token → Token} (ms : List Marker) :
    (ms.map (Marker.map f)).count .indent = ms.count .indent ∧ (ms.map (Marker.map f)).count .dedent = ms.count .dedent := by
  induction ms with
  | nil => exact ⟨rfl, rfl⟩
  | cons m ms ih => cases m <;> simp [Marker.map, ih]

/-- **C58** Two files, one after the other, are formatted one after the other.  Let `s1` and `s2` be accepted files; `s1`
ends with `;` and white space `v`, `s2` starts with white space `w2` and a token other than a comment, `within` and
`final`; and no indentation of `s1` is left over.  Then `s1 ++ s2` is accepted, and its output is that of `s1`, an empty
line if there is more than one line break between them, and that of `s2`. -/
theorem C58_join (eol name name1 name2 s1 s2 o1 o2 : Text) (p1 p2 : Parsed) (h1 : Formatted eol name1 s1 p1 o1)
    (h2 : Formatted eol name2 s2 p2 o2) (ps qs : List (Text × Chunk)) (w1 v w2 : Text) (k : Tok) (t : Text)
    (d1 : Divided s1 (ps ++ [(w1, .token .Semicolon c!";")])) (e1 : s1 = spread (ps ++ [(w1, .token .Semicolon c!";")]) v)
    (d2 : Divided s2 ((w2, .token k t) :: qs))
    (hk : k ≠ .Within ∧ k ≠ .Final ∧ k ≠ .LineComment ∧ k ≠ .BlockComment)
    (hb : ∀ tree, buildTree p1.tokens p1.events = .ok tree → tree.leaks = 0) :
    ∃ p, Formatted eol name (s1 ++ s2) p (o1 ++ (if newlines v + newlines w2 > 1 then eol else []) ++ o2) := by
  obtain ⟨k1, k2, k3, k4⟩ := hk
  obtain ⟨tok1, aw1, tk1, cm1, cs1, m1, t1, r1, op1, b1, f1, pr1, eo1⟩ := formatted_facts h1 d1
  obtain ⟨tok2, aw2, tk2, cm2, cs2, m2, t2, r2, op2, b2, f2, pr2, eo2⟩ := formatted_facts h2 d2
  have hd := divided_append d2 d1 e1 (fun x hx => tok1 x (List.mem_append_left _ hx))
  generalize hP : ps ++ [(w1, Chunk.token .Semicolon c!";")] = P at d1 e1 hd tok1 aw1 tk1 cm1
  have tok2' : ∀ x ∈ (v ++ w2, Chunk.token k t) :: qs, ∃ k t, x.2 = .token k t := by
    intro x hx
    rcases List.mem_cons.1 hx with rfl | hx
    · exact ⟨k, t, rfl⟩
    · exact tok2 x (List.mem_cons_of_mem _ hx)
  have tokA : ∀ x ∈ P ++ (v ++ w2, Chunk.token k t) :: qs, ∃ k t, x.2 = .token k t := by
    intro x hx
    rcases List.mem_append.1 hx with hx | hx
    · exact tok1 x hx
    · exact tok2' x hx
  -- the tokens
  have hlex := C53_lexed name (s1 ++ s2) _ hd
  have hawk : awkward false (P ++ (v ++ w2, Chunk.token k t) :: qs) = false := by
    rw [awkward_append P _ tok1, aw1, Bool.false_or]
    simpa [awkward] using aw2
  rw [hawk, tokens_problems name _ _ tokA] at hlex
  simp only [Bool.false_eq_true, if_false] at hlex
  have es : s1 = spread P [] ++ v := by rw [e1]; simp [spread]
  have hls : lexemes [] 0 (P ++ (v ++ w2, Chunk.token k t) :: qs) =
      lexemes [] 0 P ++ lexemes s1 P.length ((w2, .token k t) :: qs) := by
    rw [lexemes_append P _ _ _ tok1, lexemes_white, es]
    simp
  have hsh := lexemes_shift ((w2, .token k t) :: qs) s1 [] P.length 0
  rw [List.append_nil, Nat.zero_add] at hsh
  let N := Token.lines
  let S := Token.shift P.length (newlines s1)
  have hN : ∀ t, (N t).kind = t.kind := fun _ => rfl
  have hS : ∀ t, (S t).kind = t.kind := fun _ => rfl
  generalize hA : lexemes [] 0 (P ++ (v ++ w2, Chunk.token k t) :: qs) = A at hlex hls
  have hAN : A.map N = (lexemes [] 0 P).map N ++ ((lexemes [] 0 ((w2, .token k t) :: qs)).map N).map S := by
    rw [hls, List.map_append, hsh]
  have hT : (A.filter fun t => !isComment t).map N = p1.tokens.map N ++ (p2.tokens.map N).map S := by
    rw [(map_filter_comment hN A).2, hAN, List.filter_append, ← (map_filter_comment hS _).2,
      ← (map_filter_comment hN _).2, ← (map_filter_comment hN _).2, ← tk1, ← tk2]
  have hC : (A.filter isComment).map N = p1.comments.map N ++ (p2.comments.map N).map S := by
    rw [(map_filter_comment hN A).1, hAN, List.filter_append, ← (map_filter_comment hS _).1,
      ← (map_filter_comment hN _).1, ← (map_filter_comment hN _).1, ← cm1, ← cm2]
  -- the last token of the first file and the first one of the second file
  have hlast : ∃ ini last, lexemes [] 0 P = lexemes [] 0 ps ++ [last] ∧ p1.tokens = ini ++ [last] ∧
      last.idx = ps.length ∧ last.stop.line = 1 + newlines (spread P []) ∧ isComment last = false := by
    have e : lexemes [] 0 P = lexemes [] 0 ps ++ [⟨ps.length, c!";", .Semicolon, position (spread ps [] ++ w1),
        position (spread ps [] ++ w1 ++ c!";")⟩] := by
      rw [← hP, lexemes_append ps _ _ _ (fun x hx => tok1 x (by rw [← hP]; exact List.mem_append_left _ hx))]
      simp [lexemes]
    refine ⟨(lexemes [] 0 ps).filter fun t => !isComment t, _, e, ?_, rfl, ?_, rfl⟩
    · rw [tk1, e, List.filter_append]; rfl
    · rw [← hP]; simp [position, spread, Chunk.text]
  obtain ⟨ini, last, l1, l2, l3, l4, l5⟩ := hlast
  have hfirst : ∃ t0 ts, p2.tokens = t0 :: ts ∧ t0.kind = k ∧ t0.idx = 0 ∧ t0.start.line = 1 + newlines w2 := by
    refine ⟨⟨0, t, k, position ([] ++ w2), position ([] ++ w2 ++ t)⟩,
      (lexemes ([] ++ w2 ++ t) 1 qs).filter (fun t => !isComment t), ?_, rfl, rfl, by simp [position]⟩
    rw [tk2, lexemes, List.filter_cons, if_pos (by simp [isComment, k3, k4])]
  obtain ⟨t0, ts, g1, g2, g3, g4⟩ := hfirst
  have hlen : P.length = ps.length + 1 := by rw [← hP]; simp
  have hl1 : newlines s1 = newlines (spread P []) + newlines v := by rw [es, newlines_append]
  -- the joined file
  have hT1 : p1.tokens.map N = ini.map N ++ [N last] := by rw [l2]; simp
  have hT2 : p2.tokens.map N = N t0 :: ts.map N := by rw [g1]; rfl
  have r1' := reading_map hN r1
  have r2' := reading_map hN r2
  have hr := join_reading (n := P.length) (d := newlines s1) r1' r2' hT2 (g2 ▸ k1) (g2 ▸ k2)
  have ho := join_opens (n := P.length) (d := newlines s1) (map_opens (f := N) hN _ op1) (map_opens (f := N) hN _ op2)
  have f1' : format (.node .StoredDefinition (mapTrees N cs1)) (p1.comments.map N) = .ok (m1.map (Marker.map N)) := by
    have := format_map keep_lines (.node .StoredDefinition cs1) p1.comments
    rw [f1] at this
    exact this
  have f2' : format (.node .StoredDefinition (mapTrees N cs2)) (p2.comments.map N) = .ok (m2.map (Marker.map N)) := by
    have := format_map keep_lines (.node .StoredDefinition cs2) p2.comments
    rw [f2] at this
    exact this
  have hfm := join_format (n := P.length) (d := newlines s1) r1' r2' hT1 hT2 (g2 ▸ k1) (g2 ▸ k2)
    (C1 := p1.comments.map N) (C2 := p2.comments.map N)
    (by
      intro x hx
      obtain ⟨y, hy, rfl⟩ := List.mem_map.1 hx
      rw [tk1] at hy
      have := lexemes_idx _ _ _ y (List.mem_filter.1 hy).1
      show y.idx < _
      omega)
    (by
      intro x hx
      obtain ⟨y, hy, rfl⟩ := List.mem_map.1 hx
      rw [cm1, l1, List.filter_append, List.filter_cons, l5] at hy
      simp only [Bool.false_eq_true, if_false, List.filter_nil, List.append_nil] at hy
      have := lexemes_idx _ _ _ y (List.mem_filter.1 hy).1
      show y.idx < last.idx
      omega)
    (by intro x _; show ¬ x.idx < t0.idx; omega)
    (by show last.stop.line ≤ t0.start.line + newlines s1; omega) f1' f2'
  have hgap : (N t0).start.line + newlines s1 - (N last).stop.line = newlines v + newlines w2 := by
    show t0.start.line + newlines s1 - last.stop.line = _
    omega
  rw [hgap] at hfm
  have hbal : (m1.map (Marker.map N)).count .indent = (m1.map (Marker.map N)).count .dedent := by
    obtain ⟨tree, marks, c1, c2, c3⟩ := C11_exact name1 s1 p1 h1.parsed h1.accepted
    have hz := hb tree c1
    rw [b1] at c1
    simp only [Res.ok.injEq] at c1
    subst c1
    rw [f1] at c2
    simp only [Res.ok.injEq] at c2
    subst c2
    rw [(count_map m1).1, (count_map m1).2, c3, hz]; rfl
  have hpr := printMarks_gap eol (newlines v + newlines w2) (by rw [printMarks_map keep_lines]; exact pr1)
    (by
      show printMarks eol ((m2.map (Marker.map N)).map (Marker.map S)) 0 = .ok t2
      rw [← printMarks_twin (B := {}) (twin_shift {} P.length (newlines s1) rfl rfl) eol (m2.map (Marker.map N)) 0, marks_id,
        printMarks_map keep_lines]
      exact pr2) hbal
  obtain ⟨F, x1, x2, x3⟩ := events_accept (name := name) (by decide) hr ho
  obtain ⟨errs, y1, y2⟩ := (C24_only_kinds name name _ (A.filter fun t => !isComment t) .StoredDefinition (by
    rw [← hT, List.map_map]
    exact List.map_congr_left fun _ _ => rfl)).1 _ _ x1
  have y3 : errs = [] := List.length_eq_zero_iff.1 y2
  subst y3
  refine ⟨⟨A.filter (fun t => !isComment t), A.filter isComment, (Tree.node .StoredDefinition F).evs, []⟩, ?_, rfl,
    t1 ++ eol ++ (if newlines v + newlines w2 > 1 then eol else []) ++ t2, ?_, ?_⟩
  · simp only [parse, hlex, Res.bind_ok, y1, List.append_nil]
  · show prettyPrint eol _ _ _ = _
    rw [← prettyPrint_map keep_lines]
    show prettyPrint eol (List.map N _) (List.map N _) _ = _
    rw [hT, hC, ← x3, prettyPrint, buildTree_evs, x2]
    exact (congrArg (fun x => Res.bind x fun marks => printMarks eol marks 0) hfm).trans hpr
  · rw [eo1, eo2]; simp

/-- The name of a file does not matter. -/
theorem renamed {eol name src out : Text} {p : Parsed} {ps : List (Text × Chunk)} (name' : Text) (hd : Divided src ps)
    (h : Formatted eol name src p out) : ∃ q, Formatted eol name' src q out := by
  let l : Twice := ps.map fun x => (x.1, x.1, x.2)
  have e1 : l.first = ps := by simp [l, Twice.first, Function.comp_def]
  have e2 : l.second = ps := by simp [l, Twice.second, Function.comp_def]
  refine (C57_same_breaks eol name name' src src l (e1 ▸ hd) (e2 ▸ hd) ?_ out).1 ⟨p, h⟩
  intro x hx
  obtain ⟨y, _, rfl⟩ := List.mem_map.1 hx
  rfl

/-- A file that may be joined with others: it is accepted, with the given output; no indentation is left over; its first
piece is a token other than a comment, `within` and `final`; its last piece is `;`.  There are `before` line breaks before
the first piece and `after` line breaks behind the last one. -/
structure Joinable (eol : Text) where
  src : Text
  out : Text
  before : Nat
  after : Nat
  accepted : ∃ name p, Formatted eol name src p out ∧
    ∀ tree, buildTree p.tokens p.events = .ok tree → tree.leaks = 0
  pieces : ∃ ps w1 v w2 k t qs, Divided src (ps ++ [(w1, .token .Semicolon c!";")]) ∧
    src = spread (ps ++ [(w1, .token .Semicolon c!";")]) v ∧
    ps ++ [(w1, .token .Semicolon c!";")] = (w2, .token k t) :: qs ∧
    (k ≠ .Within ∧ k ≠ .Final ∧ k ≠ .LineComment ∧ k ≠ .BlockComment) ∧
    newlines w2 = before ∧ newlines v = after

/-- The outputs one after the other, with an empty line where the files are more than one line break apart. -/
def glued {eol : Text} : List (Joinable eol) → Text
  | [] => []
  | [a] => a.out
  | a :: b :: l => a.out ++ (if a.after + b.before > 1 then eol else []) ++ glued (b :: l)

/-- **C58** Any number of files, one after the other. -/
theorem C58_parts (eol name : Text) : ∀ (a : Joinable eol) (l : List (Joinable eol)),
    ∃ p, Formatted eol name ((a :: l).flatMap Joinable.src) p (glued (a :: l)) := by
  have key : ∀ (l : List (Joinable eol)) (a : Joinable eol),
      (∃ p, Formatted eol name ((a :: l).flatMap Joinable.src) p (glued (a :: l))) ∧
      ∃ w2 k t qs, Divided ((a :: l).flatMap Joinable.src) ((w2, .token k t) :: qs) ∧
        (k ≠ .Within ∧ k ≠ .Final ∧ k ≠ .LineComment ∧ k ≠ .BlockComment) ∧ newlines w2 = a.before := by
    intro l
    induction l with
    | nil =>
      intro a
      obtain ⟨n, p, hp, _⟩ := a.accepted
      obtain ⟨ps, w1, v, w2, k, t, qs, h1, h2, h3, h4, h5, h6⟩ := a.pieces
      have e : [a].flatMap Joinable.src = a.src := by simp
      rw [e]
      obtain ⟨q, hq⟩ := renamed name h1 hp
      exact ⟨⟨q, hq⟩, w2, k, t, qs, h3 ▸ h1, h4, h5⟩
    | cons b l ih =>
      intro a
      obtain ⟨⟨q, hq⟩, w2', k', t', qs', d', hk', n'⟩ := ih b
      obtain ⟨n, p, hp, hl⟩ := a.accepted
      obtain ⟨ps, w1, v, w2, k, t, qs, h1, h2, h3, h4, h5, h6⟩ := a.pieces
      have e : (a :: b :: l).flatMap Joinable.src = a.src ++ (b :: l).flatMap Joinable.src := rfl
      rw [e]
      refine ⟨?_, w2, k, t, qs ++ (v ++ w2', .token k' t') :: qs', ?_, h4, h5⟩
      · have := C58_join eol name n name a.src _ a.out _ p q hp hq ps qs' w1 v w2' k' t' h1 h2 d' hk' hl
        rw [h6, n'] at this
        exact this
      · have ht := (formatted_facts hp h1).1
        have := divided_append d' h1 h2 (fun x hx => ht x (List.mem_append_left _ hx))
        rwa [h3] at this
  exact fun a l => (key l a).1

-- Two files, with one line break and with an empty line between them.
def exLeft : Text := c!"model A Real x;end A;\n"
def exRight : Text := c!"model B end B;"
def exRightOf : List (Text × Chunk) := [([], .token .Model c!"model"), (c!" ", .token .Identifier c!"B"),
  (c!" ", .token .End c!"end"), (c!" ", .token .Identifier c!"B"), ([], .token .Semicolon c!";")]
def exLeftOf : List (Text × Chunk) := [([], .token .Model c!"model"), (c!" ", .token .Identifier c!"A"),
  (c!" ", .token .Identifier c!"Real"), (c!" ", .token .Identifier c!"x"), ([], .token .Semicolon c!";"),
  ([], .token .End c!"end"), (c!" ", .token .Identifier c!"A"), ([], .token .Semicolon c!";")]

theorem exLeft_pieces : Divided exLeft exLeftOf := by
  refine divided_token (w := []) (r := c!" A Real x;end A;\n") (k := .Model) (c := 'm') (t := c!"odel") rfl
    (by decide +kernel) ?_
  refine divided_token (w := c!" ") (r := c!" Real x;end A;\n") (k := .Identifier) (c := 'A') (t := []) rfl
    (by decide +kernel) ?_
  refine divided_token (w := c!" ") (r := c!" x;end A;\n") (k := .Identifier) (c := 'R') (t := c!"eal") rfl
    (by decide +kernel) ?_
  refine divided_token (w := c!" ") (r := c!";end A;\n") (k := .Identifier) (c := 'x') (t := []) rfl
    (by decide +kernel) ?_
  refine divided_token (w := []) (r := c!"end A;\n") (k := .Semicolon) (c := ';') (t := []) rfl
    (by decide +kernel) ?_
  refine divided_token (w := []) (r := c!" A;\n") (k := .End) (c := 'e') (t := c!"nd") rfl
    (by decide +kernel) ?_
  refine divided_token (w := c!" ") (r := c!";\n") (k := .Identifier) (c := 'A') (t := []) rfl (by decide +kernel) ?_
  exact divided_token (w := []) (r := c!"\n") (k := .Semicolon) (c := ';') (t := []) rfl (by decide +kernel) (.done rfl)

theorem exRight_pieces (w : Text) (hw : w.all ws = true) :
    Divided (w ++ exRight) ((w, .token .Model c!"model") :: exRightOf.tail) := by
  have e : w ++ exRight = w ++ 'm' :: c!"odel" ++ c!" B end B;" := by simp [exRight]
  rw [e]
  refine divided_token (k := .Model) hw (by decide +kernel) ?_
  refine divided_token (w := c!" ") (r := c!" end B;") (k := .Identifier) (c := 'B') (t := []) rfl (by decide +kernel) ?_
  refine divided_token (w := c!" ") (r := c!" B;") (k := .End) (c := 'e') (t := c!"nd") rfl (by decide +kernel) ?_
  refine divided_token (w := c!" ") (r := c!";") (k := .Identifier) (c := 'B') (t := []) rfl (by decide +kernel) ?_
  exact divided_token (w := []) (r := []) (k := .Semicolon) (c := ';') (t := []) rfl (by decide +kernel) (.done rfl)

theorem leaks_of {name src : Text} {p : Parsed} (hp : parse name src .StoredDefinition = .ok p)
    (h : (pipeline name src).any (fun x => x.2.1.leaks == 0) = true) :
    ∀ tree, buildTree p.tokens p.events = .ok tree → tree.leaks = 0 := by
  intro tree ht
  obtain ⟨⟨q, t, m⟩, hx, h⟩ := pipeline_any h
  obtain ⟨h1, h2, h3⟩ := pipeline_eq hx
  rw [hp] at h1
  simp only [Res.ok.injEq] at h1
  subst h1
  rw [ht] at h2
  simp only [Res.ok.injEq] at h2
  subst h2
  simpa using h

/-- The first file may be joined with others. -/
def exLeftPart : Joinable c!"\n" where
  src := exLeft
  out := c!"model A\n\n  Real x;\n\nend A;\n"
  before := 0
  after := 1
  accepted := by
    refine ⟨c!"f", match parse c!"f" exLeft .StoredDefinition with | .ok p => p | _ => ⟨[], [], [], []⟩,
      ⟨by decide_cbv, by decide_cbv, c!"model A\n\n  Real x;\n\nend A;", by decide_cbv, rfl⟩, ?_⟩
    exact leaks_of (name := c!"f") (src := exLeft) (by decide_cbv) (by decide_cbv)
  pieces := ⟨exLeftOf.dropLast, [], c!"\n", [], .Model, c!"model", exLeftOf.tail, exLeft_pieces, by decide, rfl,
    by decide, by decide, by decide⟩

/-- The second file, without line breaks before it and with two, may be joined with others. -/
def exRightPart (w : Text) (h : w = [] ∨ w = c!"\n\n") : Joinable c!"\n" where
  src := w ++ exRight
  out := c!"model B\n\nend B;\n"
  before := newlines w
  after := 0
  accepted := by
    rcases h with rfl | rfl
    · refine ⟨c!"f", match parse c!"f" exRight .StoredDefinition with | .ok p => p | _ => ⟨[], [], [], []⟩,
        ⟨by decide_cbv, by decide_cbv, c!"model B\n\nend B;", by decide_cbv, rfl⟩, ?_⟩
      exact leaks_of (name := c!"f") (src := exRight) (by decide_cbv) (by decide_cbv)
    · refine ⟨c!"f", match parse c!"f" (c!"\n\n" ++ exRight) .StoredDefinition with | .ok p => p | _ => ⟨[], [], [], []⟩,
        ⟨by decide_cbv, by decide_cbv, c!"model B\n\nend B;", by decide_cbv, rfl⟩, ?_⟩
      exact leaks_of (name := c!"f") (src := c!"\n\n" ++ exRight) (by decide_cbv) (by decide_cbv)
  pieces := ⟨(w, .token .Model c!"model") :: exRightOf.tail.dropLast, [], [], w, .Model, c!"model", exRightOf.tail,
    exRight_pieces w (by rcases h with rfl | rfl <;> decide), by rcases h with rfl | rfl <;> decide, rfl,
    by decide, rfl, rfl⟩

/-- What `C58_parts` says of them: one line break becomes one, three become an empty line. -/
example : (∃ p, Formatted c!"\n" c!"g" c!"model A Real x;end A;\nmodel B end B;" p
      c!"model A\n\n  Real x;\n\nend A;\nmodel B\n\nend B;\n") ∧
    (∃ p, Formatted c!"\n" c!"g" c!"model A Real x;end A;\n\n\nmodel B end B;" p
      c!"model A\n\n  Real x;\n\nend A;\n\nmodel B\n\nend B;\n") :=
  ⟨C58_parts c!"\n" c!"g" exLeftPart [exRightPart [] (.inl rfl)],
    C58_parts c!"\n" c!"g" exLeftPart [exRightPart c!"\n\n" (.inr rfl)]⟩

-- The conditions are needed.  A comment that starts a file is lost (C04), but not if another file comes before it:
def exNote : Text := c!"// c\nmodel B end B;"
def exBare : Text := c!"model A end A;"

example : (∃ p, Formatted c!"\n" c!"f" exBare p c!"model A\n\nend A;\n") ∧
    (∃ p, Formatted c!"\n" c!"f" exNote p c!"model B\n\nend B;\n") ∧
    ∃ p, Formatted c!"\n" c!"f" (exBare ++ exNote) p c!"model A\n\nend A; // c\nmodel B\n\nend B;\n" :=
  ⟨⟨match parse c!"f" exBare .StoredDefinition with | .ok p => p | _ => ⟨[], [], [], []⟩,
      by decide_cbv, by decide_cbv, c!"model A\n\nend A;", by decide_cbv, rfl⟩,
    ⟨match parse c!"f" exNote .StoredDefinition with | .ok p => p | _ => ⟨[], [], [], []⟩,
      by decide_cbv, by decide_cbv, c!"model B\n\nend B;", by decide_cbv, rfl⟩,
    ⟨match parse c!"f" (exBare ++ exNote) .StoredDefinition with | .ok p => p | _ => ⟨[], [], [], []⟩,
      by decide_cbv, by decide_cbv, c!"model A\n\nend A; // c\nmodel B\n\nend B;", by decide_cbv, rfl⟩⟩

-- and an indentation that is left over (`C11_false`) is applied to what follows.
example : ∃ p, Formatted c!"\n" c!"f" (exLeak ++ exRight) p
    c!"model A\n\nequation\n\n  a\n    + b = c;\n\n  end A;\n  model B\n\n  end B;\n" :=
  ⟨match parse c!"f" (exLeak ++ exRight) .StoredDefinition with | .ok p => p | _ => ⟨[], [], [], []⟩,
    by decide_cbv, by decide_cbv, c!"model A\n\nequation\n\n  a\n    + b = c;\n\n  end A;\n  model B\n\n  end B;", by decide_cbv, rfl⟩

#print axioms C58_join
#print axioms C58_parts

end Mofmt
