import Verif.Proofs.SwapLine
/-
C76: an edit within a line does not change the output in other places.
-/
namespace Mofmt
open Lexical

/-! ### Specification -/

/-- what is printed before the token of a group: comments with white space, and white space -/
def Group.before (g : Group) : List (Text × Token) × Text := (g.comments, g.white)

/-! ### Proof -/

/-- comments behind some tokens are left behind them -/
theorem run_more : ∀ (ds : List (Dec × Token)) (L : LS) (r : List Token), (∀ x ∈ ds, ∀ c ∈ r, x.2.idx ≤ c.idx) →
    { L with comments := L.comments ++ r }.run ds = { L.run ds with comments := (L.run ds).comments ++ r }
  | [], _, _, _ => rfl
  | (d, t) :: ds, L, r, h => by
    have ht := h (d, t) (by simp)
    have ih := run_more ds (L.step (d, t)) r fun x hx => h x (List.mem_cons_of_mem _ hx)
    have hs : { L with comments := L.comments ++ r }.step (d, t) =
        { (L.step (d, t)) with comments := (L.step (d, t)).comments ++ r } := by
      rw [LS.step_left]
      cases d with
      | none => simp only [LS.step, LS.dec, LS.emit, dropWhile_behind ht]
      | space => simp only [LS.step, LS.dec, LS.emit, dropWhile_behind ht]
      | brk b n => simp only [LS.step, LS.dec, LS.emit, dropWhile_behind ht, takeWhile_behind ht, dropWhile_twice]
    show LS.run (LS.step _ (d, t)) ds = _
    rw [hs, ih]
    rfl

/-- what is printed before a token does not depend on the comments behind it, and not on the token -/
theorem group_before (eol : Text) {L : LS} {r r' : List Token} {d : Dec} {t t' : Token} (hr : ∀ c ∈ r, t.idx ≤ c.idx)
    (hr' : ∀ c ∈ r', t.idx ≤ c.idx) (hi : t.idx = t'.idx) (hl : t.start.line = t'.start.line) :
    (PGroup.toGroup eol ({ L with comments := L.comments ++ r }.group (d, t))).before =
    (PGroup.toGroup eol ({ L with comments := L.comments ++ r' }.group (d, t'))).before := by
  cases d with
  | none => rfl
  | space => rfl
  | brk b n =>
    have e : ∀ c l, breakSegs L.out.isEmpty c l b n t = breakSegs L.out.isEmpty c l b n t' := by
      intro c l
      unfold breakSegs
      rw [hl]
    simp only [LS.group, takeWhile_behind hr, ← hi, takeWhile_behind hr', e]
    rfl

/-- the groups of the parts of a file when the parts in the middle end in tokens on the same line -/
theorem middle_groups (eol : Text) {A X Y : Nat} {CA CX CY CB CB' : List Token} {a x y b b' : List (Dec × Token)} {u u' : Dec × Token}
    {e : Nat} (ha : ∀ z ∈ a, z.2.idx < A) (hx : ∀ z ∈ x ++ [u], A ≤ z.2.idx ∧ z.2.idx < A + X)
    (hy : ∀ z ∈ y ++ [u'], A ≤ z.2.idx ∧ z.2.idx < A + Y) (cA : ∀ c ∈ CA, c.idx < A)
    (cX : ∀ c ∈ CX, A ≤ c.idx ∧ c.idx < u.2.idx) (cY : ∀ c ∈ CY, A ≤ c.idx ∧ c.idx < u'.2.idx)
    (cB : ∀ c ∈ CB, A + X ≤ c.idx) (cB' : ∀ c ∈ CB', A + Y ≤ c.idx) (hu : u.2.stop.line = u'.2.stop.line)
    (hb : AlikeDecs (A + X) (A + Y) e e b b') (hc : Alikes (A + X) (A + Y) e e CB CB') :
    ∃ ga gx gy gb gb', groupsOf eol (CA ++ (CX ++ CB)) (a ++ (x ++ [u]) ++ b) = ga ++ gx ++ gb ∧
      groupsOf eol (CA ++ (CY ++ CB')) (a ++ (y ++ [u']) ++ b') = ga ++ gy ++ gb' ∧
      ga.map (·.tok) = a.map (·.2) ∧ gx.map (·.tok) = (x ++ [u]).map (·.2) ∧ gy.map (·.tok) = (y ++ [u']).map (·.2) ∧
      gb.map (·.tok) = b.map (·.2) ∧ gb'.map (·.tok) = b'.map (·.2) ∧
      gb'.map Group.shown = gb.map Group.shown ∧
      (∀ d x0 y0 xs ys, x ++ [u] = (d, x0) :: xs → y ++ [u'] = (d, y0) :: ys → x0.idx = A → y0.idx = A →
        x0.start.line = y0.start.line → gx.head?.map Group.before = gy.head?.map Group.before) := by
  have tok : ∀ (L : LS) (ds : List (Dec × Token)), ((L.groups ds).map (PGroup.toGroup eol)).map (·.tok) = ds.map (·.2) := by
    intro L ds
    rw [List.map_map]
    exact LS.groups_tok ds L
  have first : ∀ (R : List Token), (∀ c ∈ R, A ≤ c.idx) →
      (LS.init (CA ++ R)).groups a = (LS.init CA).groups a := by
    intro R hR
    refine groups_behind a (LS.init CA) R fun z hz c hc => ?_
    have := ha z hz
    have := hR c hc
    omega
  have snoc : ∀ (L : LS) (ds : List (Dec × Token)) (v : Dec × Token), L.run (ds ++ [v]) = (L.run ds).step v := by
    intro L ds v
    simp [LS.run, List.foldl_append]
  have last : ∀ (ds : List (Dec × Token)) (P R : List Token) (v : Dec × Token) (N : Nat), (∀ z ∈ ds ++ [v], z.2.idx < N) →
      (∀ c ∈ P, c.idx < v.2.idx) → (∀ c ∈ R, N ≤ c.idx) →
      ((LS.init (P ++ R)).run (ds ++ [v])).comments = R := by
    intro ds P R v N h1 h2 h3
    obtain ⟨P', p1, p2⟩ := run_behind R ds P fun z hz c hc => by
      have := h1 z (by simp [hz])
      have := h3 c hc
      omega
    rw [snoc, LS.step_left, run_comments]
    show (ds.foldl _ (P ++ R)).dropWhile _ = _
    rw [p2, dropWhile_before fun c hc => h2 c (p1 c hc)]
    cases R with
    | nil => rfl
    | cons c R =>
      have := h3 c (by simp)
      have := h1 v (by simp)
      rw [List.dropWhile_cons_of_neg]
      simp only [decide_eq_true_eq]
      omega
  refine ⟨((LS.init CA).groups a).map (PGroup.toGroup eol),
    (((LS.init (CA ++ (CX ++ CB))).run a).groups (x ++ [u])).map (PGroup.toGroup eol),
    (((LS.init (CA ++ (CY ++ CB'))).run a).groups (y ++ [u'])).map (PGroup.toGroup eol),
    (((LS.init (CA ++ (CX ++ CB))).run (a ++ (x ++ [u]))).groups b).map (PGroup.toGroup eol),
    (((LS.init (CA ++ (CY ++ CB'))).run (a ++ (y ++ [u']))).groups b').map (PGroup.toGroup eol),
    ?_, ?_, tok _ _, tok _ _, tok _ _, tok _ _, tok _ _, ?_, ?_⟩
  · rw [groupsOf, LS.groups_append, LS.groups_append, first, List.map_append, List.map_append]
    intro c hc
    rcases List.mem_append.1 hc with hc | hc
    · exact (cX c hc).1
    · have := cB c hc; omega
  · rw [groupsOf, LS.groups_append, LS.groups_append, first, List.map_append, List.map_append]
    intro c hc
    rcases List.mem_append.1 hc with hc | hc
    · exact (cY c hc).1
    · have := cB' c hc; omega
  · refine AlikeLS.groups eol hb ⟨?_, ?_, ?_⟩
    · rw [← List.append_assoc a, ← List.append_assoc a, snoc, snoc]; rfl
    · rw [← List.append_assoc a, ← List.append_assoc a, ← List.append_assoc CA, ← List.append_assoc CA]
      rw [last (a ++ x) (CA ++ CX) CB u (A + X) ?_ ?_ cB, last (a ++ y) (CA ++ CY) CB' u' (A + Y) ?_ ?_ cB']
      · exact hc
      · intro z hz
        rw [List.append_assoc] at hz
        rcases List.mem_append.1 hz with hz | hz
        · have := ha z hz; omega
        · exact (hy z hz).2
      · intro z hz
        rcases List.mem_append.1 hz with hz | hz
        · have := cA z hz; have := hy u' (by simp); omega
        · exact (cY z hz).2
      · intro z hz
        rw [List.append_assoc] at hz
        rcases List.mem_append.1 hz with hz | hz
        · have := ha z hz; omega
        · exact (hx z hz).2
      · intro z hz
        rcases List.mem_append.1 hz with hz | hz
        · have := cA z hz; have := hx u (by simp); omega
        · exact (cX z hz).2
    · rw [← List.append_assoc a, ← List.append_assoc a, snoc, snoc]
      show u.2.stop.line + e = u'.2.stop.line + e
      rw [hu]
  · intro d x0 y0 xs ys h1 h2 h3 h4 h5
    have b1 : ∀ c ∈ CX ++ CB, A ≤ c.idx := by
      intro c hc
      rcases List.mem_append.1 hc with hc | hc
      · exact (cX c hc).1
      · have := cB c hc; omega
    have b2 : ∀ c ∈ CY ++ CB', A ≤ c.idx := by
      intro c hc
      rcases List.mem_append.1 hc with hc | hc
      · exact (cY c hc).1
      · have := cB' c hc; omega
    have r1 : ∀ R : List Token, (∀ c ∈ R, A ≤ c.idx) → (LS.init (CA ++ R)).run a =
        { (LS.init CA).run a with comments := ((LS.init CA).run a).comments ++ R } := by
      intro R hR
      exact run_more a (LS.init CA) R fun z hz c hc => by
        have := ha z hz
        have := hR c hc
        omega
    rw [h1, h2, r1 _ b1, r1 _ b2]
    simp only [LS.groups, List.map_cons, List.head?_cons, Option.map_some, Option.some.injEq]
    exact group_before eol (h3 ▸ b1) (h3 ▸ b2) (by rw [h3, h4]) h5

/-- the last token of pieces that end in code, and the comments before it -/
theorem code_last {ps : List (Text × Chunk)} (h : endsInCode ps) (ht : ∀ x ∈ ps, ∃ k t, x.2 = .token k t) (pre : Text) (i : Nat) :
    ∃ l u, codeOf pre i ps = l ++ [u] ∧ u.stop.line = 1 + newlines (pre ++ spread ps []) ∧
      ∀ c ∈ (lexemes pre i ps).filter isComment, i ≤ c.idx ∧ c.idx < u.idx := by
  obtain ⟨qs, w, k, t, rfl, h1, h2⟩ := h
  have hq : ∀ x ∈ qs, ∃ k t, x.2 = .token k t := fun x hx => ht x (by simp [hx])
  have e := lexemes_append qs [(w, .token k t)] pre i hq
  simp only [lexemes] at e
  have hn : ∀ n a b, isComment ⟨n, t, k, a, b⟩ = false := by intro n a b; simp [isComment, h1, h2]
  refine ⟨codeOf pre i qs, ⟨i + qs.length, t, k, position (pre ++ spread qs [] ++ w), position (pre ++ spread qs [] ++ w ++ t)⟩,
    ?_, ?_, ?_⟩
  · rw [codeOf, e, List.filter_append, List.filter_cons_of_pos (by rw [hn]; rfl)]
    rfl
  · simp [position, spread, Chunk.text]
  · intro c hc
    rw [e, List.filter_append, List.filter_cons_of_neg (by rw [hn]; simp)] at hc
    simp only [List.filter_nil, List.append_nil] at hc
    exact lexemes_idx _ _ _ c (List.mem_filter.1 hc).1

theorem Looks.bare {x y : Tree} (h : Looks x y) : Looks (x.map bareTok) (y.map bareTok) where
  sym := by rw [sym_map keep_bare.kind, sym_map keep_bare.kind, h.sym]
  ifs e := by
    have hl : ∀ t : Tree, (t.map bareTok).condWide = t.condWide := by
      intro t
      simp only [Tree.condWide, spansLines, leavesF, List.append_nil, map_leaves, List.head?_map, List.getLast?_map, Option.map_map]
      cases t.leaves.head? <;> cases t.leaves.getLast? <;> rfl
    rw [hl, hl]
    exact h.ifs (by rwa [sym_map keep_bare.kind] at e)
  head := by
    have := h.head
    rw [map_leaves, map_leaves, List.head?_map, List.head?_map, Option.map_map, Option.map_map]
    exact this
  within e := by rw [h.within (by rwa [sym_map keep_bare.kind] at e)]
  last := by
    have := h.last
    rw [map_leaves, map_leaves, List.getLast?_map, List.getLast?_map, Option.map_map, Option.map_map]
    exact this
  first := by
    have := h.first
    rw [start_map, start_map, Option.map_map, Option.map_map]
    exact this
  final := by
    have := h.final
    rw [end_map, end_map, Option.map_map, Option.map_map]
    exact this
  wraps := by rw [wraps_map keep_bare, wraps_map keep_bare, h.wraps]
  leaks := by rw [leaks_map keep_bare, leaks_map keep_bare, h.leaks]
  desc k hk := by rw [occurs_map, occurs_map, h.desc k hk]
  kids := by
    have e : ∀ t : Tree, occursF .Description (t.map bareTok).kids = occursF .Description t.kids := by
      intro t
      cases t with
      | tok t => rfl
      | node k cs => exact occursF_map _ cs
    rw [e, e, h.kids]
  comma := by
    have e : ∀ t : Tree, (t.map bareTok).kids.getLast?.map Tree.sym = t.kids.getLast?.map Tree.sym := by
      intro t
      cases t with
      | tok t => rfl
      | node k cs =>
        simp only [Tree.map, Tree.kids, mapTrees_list, List.getLast?_map, Option.map_map]
        congr 1
        funext u
        exact sym_map keep_bare.kind u
    rw [e, e, h.comma]

/-- the groups of the files -/
theorem swap_groups {eol name src out name' src' : Text} {p : Parsed} {A X Y B : List (Text × Chunk)} {l : Lexed} {tree : Tree}
    {k : SK} {cs ds : List Tree} (hf : Formatted eol name src p out) (hd : Divided src (A ++ X ++ B))
    (hd' : Divided src' (A ++ Y ++ B)) (hl : lex name' src' = .ok l) (he : l.errors = [])
    (ht : buildTree p.tokens p.events = .ok tree) (hk : k ≠ .StoredDefinition)
    (hX : Part (.node k cs) tree) (hx : leavesF cs = codeOf (spread A []) A.length X)
    (hY : Reading k (codeOf (spread A []) A.length Y) ds) (ho : (Tree.node k ds).Opens)
    (hs : ∀ t, (leavesF ds).head? = some t → (t.kind ≠ .End ∧ t.kind ≠ .Initial) ∨
      (leavesF cs).head?.map Token.kind = some t.kind)
    (hcX : endsInCode X) (hcY : endsInCode Y) (hn : newlines (spread X []) = newlines (spread Y []))
    (hlk : Looks (.node k cs) (.node k ds)) :
    ∃ p' out' tree' ga gx gy gb gb', Formatted eol name' src' p' out' ∧ buildTree p'.tokens p'.events = .ok tree' ∧
      Part (.node k ds) tree' ∧ groupsOf eol p.comments tree.wholeLayout = ga ++ gx ++ gb ∧
      groupsOf eol p'.comments tree'.wholeLayout = ga ++ gy ++ gb' ∧
      ga.map (·.tok) = codeOf [] 0 A ∧ gx.map (·.tok) = leavesF cs ∧ gy.map (·.tok) = leavesF ds ∧
      gb.map (·.tok) = codeOf (spread (A ++ X) []) (A ++ X).length B ∧
      gb'.map (·.tok) = codeOf (spread (A ++ Y) []) (A ++ Y).length B ∧
      gb'.map Group.shown = gb.map Group.shown ∧
      (k ∈ wholeKinds → (∀ t, (leavesF cs).head? = some t → t.idx = A.length) →
        (∀ t, (leavesF ds).head? = some t → t.idx = A.length) → gx.head?.map Group.before = gy.head?.map Group.before) := by
  -- the tokens of the files
  obtain ⟨tokX, awX, tkX, cmX, cs0, _, _, rd, op, bt, _, _, _⟩ := formatted_facts hf hd
  rw [ht] at bt
  simp only [Res.ok.injEq] at bt
  have hlex := C53_lexed name' src' _ hd'
  rw [hl] at hlex
  have awY : awkward false (A ++ Y ++ B) = false := by
    cases e : awkward false (A ++ Y ++ B) with
    | false => rfl
    | true => rw [e] at hlex; simp at hlex
  rw [awY] at hlex
  simp only [Bool.false_eq_true, if_false, Res.ok.injEq] at hlex
  have tokY : ∀ x ∈ A ++ Y ++ B, ∃ k t, x.2 = .token k t := problems_tokens name' _ [] (by rw [← he, hlex])
  have split : ∀ Z : List (Text × Chunk), (∀ x ∈ A ++ Z ++ B, ∃ k t, x.2 = .token k t) →
      lexemes [] 0 (A ++ Z ++ B) = lexemes [] 0 A ++ lexemes (spread A []) A.length Z ++
        lexemes (spread (A ++ Z) []) (A ++ Z).length B := by
    intro Z hZ
    have hA : ∀ x ∈ A, ∃ k t, x.2 = .token k t := fun x hx => hZ x (by simp [hx])
    have hAZ : ∀ x ∈ A ++ Z, ∃ k t, x.2 = .token k t := fun x hx => hZ x (List.mem_append_left _ hx)
    rw [lexemes_append _ _ _ _ hAZ, lexemes_append _ _ _ _ hA]
    simp
  have code : ∀ Z : List (Text × Chunk), (∀ x ∈ A ++ Z ++ B, ∃ k t, x.2 = .token k t) →
      (lexemes [] 0 (A ++ Z ++ B)).filter (fun t => !isComment t) = codeOf [] 0 A ++ codeOf (spread A []) A.length Z ++
        codeOf (spread (A ++ Z) []) (A ++ Z).length B ∧
      (lexemes [] 0 (A ++ Z ++ B)).filter isComment = (lexemes [] 0 A).filter isComment ++
        ((lexemes (spread A []) A.length Z).filter isComment ++
          (lexemes (spread (A ++ Z) []) (A ++ Z).length B).filter isComment) := by
    intro Z hZ
    rw [split Z hZ]
    simp only [codeOf, List.filter_append, List.append_assoc, and_self]
  rw [(code X tokX).1] at tkX
  rw [(code X tokX).2] at cmX
  have tkY : l.tokens = codeOf [] 0 A ++ codeOf (spread A []) A.length Y ++
        codeOf (spread (A ++ Y) []) (A ++ Y).length B := by rw [hlex, ← (code Y tokY).1]
  have cmY : l.comments = (lexemes [] 0 A).filter isComment ++
        ((lexemes (spread A []) A.length Y).filter isComment ++
          (lexemes (spread (A ++ Y) []) (A ++ Y).length B).filter isComment) := by rw [hlex, ← (code Y tokY).2]
  have nodup : p.tokens.Nodup := by
    obtain ⟨lx, hl, l1, l2, l3⟩ := parse_lex hf.parsed hf.accepted
    have := (lexed_wf hl).ts
    rw [l1] at this
    refine this.imp fun h e => ?_
    subst e
    omega
  obtain ⟨lX', uX, cX1, cX2, cX3⟩ := code_last hcX (fun x hx => tokX x (by simp [hx])) (spread A []) A.length
  obtain ⟨lY', uY, cY1, cY2, cY3⟩ := code_last hcY (fun x hx => tokY x (by simp [hx])) (spread A []) A.length
  -- the tree around the part
  subst bt
  have hC0 := rd.conforms
  have hE0 : (Tree.node .StoredDefinition cs0).hasEmpty = false := by
    have hne : cs0 ≠ [] := by
      rintro rfl
      cases hX with
      | here => simp at hk
      | there hc _ => cases hc
    simp [Tree.hasEmpty, rd.full, hne]
  obtain ⟨C, hC⟩ := hX.around
  have hfull := hX.full hE0
  obtain ⟨x0, xs, hx0, _⟩ := start_leaves _ hfull
  simp only [Tree.leaves] at hx0
  have hYne : leavesF ds ≠ [] := by rw [hY.leaves, cY1]; simp
  have hYE : (Tree.node k ds).hasEmpty = false := by
    have hne : ds ≠ [] := by
      rintro rfl
      exact hYne rfl
    simp [Tree.hasEmpty, hY.full, hne]
  have hlv := C.leaves (.node k cs)
  rw [← hC] at hlv
  simp only [Tree.leaves] at hlv
  rw [rd.leaves] at hlv
  have hbef : C.before = codeOf [] 0 A ∧ C.after = codeOf (spread (A ++ X) []) (A ++ X).length B := by
    have e := hlv
    rw [tkX, ← hx, hx0] at e
    have nd := nodup
    rw [tkX, ← hx, hx0] at nd
    simp only [List.append_assoc, List.cons_append] at e nd
    obtain ⟨e1, e2⟩ := app_unique nd e
    exact ⟨e1.symm, (List.append_cancel_left e2).symm⟩
  have hXlen : 1 ≤ X.length := by
    obtain ⟨_, _, _, _, rfl, _⟩ := hcX; simp
  have hYlen : 1 ≤ Y.length := by
    obtain ⟨_, _, _, _, rfl, _⟩ := hcY; simp
  -- the tree without the places of the tokens
  have spl : ∀ Z : List (Text × Chunk), spread (A ++ Z) [] = spread A [] ++ spread Z [] := by
    intro Z; simp [spread]
  have hd12 : newlines (spread (A ++ X) []) = newlines (spread (A ++ Y) []) := by
    rw [spl, spl, newlines_append, newlines_append, hn]
  have hB12 : (codeOf (spread (A ++ X) []) (A ++ X).length B).map bareTok =
      (codeOf (spread (A ++ Y) []) (A ++ Y).length B).map bareTok := by
    rw [code_bare B (spread (A ++ X) []) _ (by rw [List.length_append]; omega),
      code_bare B (spread (A ++ Y) []) _ (by rw [List.length_append]; omega), hd12]
  have kb : ∀ t, (bareTok t).kind = t.kind := fun _ => rfl
  have hT1 : (Tree.node .StoredDefinition cs0).map bareTok = (C.map bareTok bareTok).plug ((Tree.node k cs).map bareTok) := by
    rw [hC, Around.map_plug]
  -- the new tree
  have hsym2 : ((C.map bareTok bareTok).plug ((Tree.node k ds).map bareTok)).sym = .n .StoredDefinition := by
    rw [Around.sym_map C (s := .node k cs) (by rfl), ← hC]; rfl
  obtain ⟨cs2, hcs2⟩ := node_of hsym2
  have hconf : ((C.map bareTok bareTok).plug ((Tree.node k ds).map bareTok)).Conforms :=
    C.conforms kb kb (s := .node k cs) (hC ▸ hC0) rfl (map_conforms kb _ hY.conforms)
  have hemp : ((C.map bareTok bareTok).plug ((Tree.node k ds).map bareTok)).hasEmpty = false :=
    C.full (s := .node k cs) (hC ▸ hE0) (by rw [map_hasEmpty]; exact hYE)
  have hopen : ((C.map bareTok bareTok).plug ((Tree.node k ds).map bareTok)).Opens := by
    refine C.opens kb kb (s := .node k cs) (hC ▸ op) rfl (map_opens kb _ ho) ?_ ?_
    · intro t h
      rw [map_leaves, Tree.leaves, List.head?_map] at h
      obtain ⟨u, hu, rfl⟩ := Option.map_eq_some_iff.1 h
      exact hs u hu
    · rw [map_leaves, Tree.leaves]
      simpa using hYne
  have hleaves : ((C.map bareTok bareTok).plug ((Tree.node k ds).map bareTok)).leaves = l.tokens.map bareTok := by
    rw [Around.leaves, Around.before_map, Around.after_map, map_leaves, Tree.leaves, hY.leaves, hbef.1, tkY,
      List.map_append, List.map_append, hbef.2, hB12]
  rw [hcs2] at hconf hemp hopen hleaves
  have hread : Reading .StoredDefinition (l.tokens.map bareTok) cs2 := by
    refine ⟨hconf, ?_, hleaves⟩
    simp only [Tree.hasEmpty, Bool.or_eq_false_iff] at hemp
    exact hemp.2
  obtain ⟨p', out', c2, hf', pt, pc, t2, hc2⟩ := accept_bare eol hl he hread hopen
  obtain ⟨c1, t1, o1, k1, _⟩ := hf.laid
  obtain ⟨c2', t2', o2, k2, _⟩ := hf'.laid
  rw [t2] at t2'
  simp only [Res.ok.injEq, Tree.node.injEq, true_and] at t2'
  rw [← t2', pc] at o2 k2
  rw [ht] at t1
  simp only [Res.ok.injEq] at t1
  rw [← t1] at o1 k1
  have hT2 : (Tree.node .StoredDefinition c2).map bareTok = (C.map bareTok bareTok).plug ((Tree.node k ds).map bareTok) := by
    rw [hcs2, Tree.map, hc2]
  -- the layouts
  obtain ⟨LA, n', w', m', d', LB, q1, q2, q3, q4⟩ := (C.map bareTok bareTok).swap hlk.bare (j := k) rfl (by
    rw [← hT1]; exact map_conforms kb _ hC0) (by rw [hcs2]; exact hconf) (by
    rw [← hT1, map_hasEmpty]; exact hE0) (by rw [hcs2]; exact hemp) 0 false false .none
  rw [← hT1, layout_map keep_bare] at q1
  rw [← hT2, layout_map keep_bare] at q2
  obtain ⟨m1, b1, r1, r2, r3⟩ := List.map_eq_append_iff.1 q1
  obtain ⟨a1, xx1, rfl, r4, r5⟩ := List.map_eq_append_iff.1 r2
  obtain ⟨m2, b2, v1, v2, v3⟩ := List.map_eq_append_iff.1 q2
  obtain ⟨a2, xx2, rfl, v4, v5⟩ := List.map_eq_append_iff.1 v2
  have toks : ∀ (tr : Tree) (a x b : List (Dec × Token)) (TA TX TB : List Token), tr.layout 0 false false .none = a ++ x ++ b →
      tr.leaves = TA ++ TX ++ TB → a.length = TA.length → x.length = TX.length →
      a.map (·.2) = TA ∧ x.map (·.2) = TX ∧ b.map (·.2) = TB := by
    intro tr a x b TA TX TB h1 h2 h3 h4
    have e := layout_toks tr 0 false false .none
    rw [h1, h2, List.map_append, List.map_append] at e
    obtain ⟨e1, e2⟩ := List.append_inj e (by simp [h3, h4])
    obtain ⟨e3, e4⟩ := List.append_inj e1 (by simp [h3])
    exact ⟨e3, e4, e2⟩
  have lenA : LA.length = (codeOf [] 0 A).length := by
    have := congrArg List.length q3
    rw [List.length_map, Around.before_map, List.length_map, hbef.1] at this
    exact this
  have lenS : ∀ t : Tree, (t.layout n' w' m' d').length = t.leaves.length := fun t => by
    rw [← layout_toks t n' w' m' d', List.length_map]
  have lX : (Tree.node .StoredDefinition cs0).leaves = codeOf [] 0 A ++ leavesF cs ++
      codeOf (spread (A ++ X) []) (A ++ X).length B := by
    rw [Tree.leaves, rd.leaves, tkX, hx]
  have lY : (Tree.node .StoredDefinition c2).leaves = codeOf [] 0 A ++ leavesF ds ++
      codeOf (spread (A ++ Y) []) (A ++ Y).length B := by
    rw [hY.leaves, ← tkY, ← layout_toks _ 0 false false .none]
    rw [groupsOf_tok, pt] at k2
    exact k2
  obtain ⟨ta1, tx1, tb1⟩ := toks _ a1 xx1 b1 _ _ _ r1 lX (by rw [← lenA, ← r4, List.length_map]) (by
    have := congrArg List.length r5
    rw [List.length_map, lenS, map_leaves, List.length_map] at this
    exact this)
  obtain ⟨ta2, tx2, tb2⟩ := toks _ a2 xx2 b2 _ _ _ v1 lY (by rw [← lenA, ← v4, List.length_map]) (by
    have := congrArg List.length v5
    rw [List.length_map, lenS, map_leaves, List.length_map] at this
    exact this)
  have ha : a2 = a1 := by
    refine pairs_eq ?_ (by rw [ta1, ta2])
    rw [← onSnd_fst bareTok a1, ← onSnd_fst bareTok a2, r4, v4]
  subst ha
  have hb : b1.map (·.1) = b2.map (·.1) := by
    rw [← onSnd_fst bareTok b1, ← onSnd_fst bareTok b2, r3, v3]
  have alike := lexemes_alike B (spread (A ++ X) []) (spread (A ++ Y) []) (A ++ X).length (A ++ Y).length
  rw [← hd12] at alike
  have hdec : AlikeDecs (A ++ X).length (A ++ Y).length _ _ b1 b2 :=
    alike_decs hb (by rw [tb1, tb2]; exact alike.code.1)
  have hx1 := tx1.trans (hx.trans cX1)
  have hy1 := tx2.trans (hY.leaves.trans cY1)
  obtain ⟨x1, x2, rfl, e1, e2⟩ := List.map_eq_append_iff.1 hx1
  obtain ⟨y1, y2, rfl, g1, g2⟩ := List.map_eq_append_iff.1 hy1
  match x2, y2, e2, g2 with
  | [u], [v], e2, g2 =>
    simp only [List.map_cons, List.map_nil, List.cons.injEq, and_true] at e2 g2
    have it : ∀ {pre : Text} {i : Nat} {ps : List (Text × Chunk)} {ls : List (Dec × Token)}, ls.map (·.2) = codeOf pre i ps →
        ∀ z ∈ ls, i ≤ z.2.idx ∧ z.2.idx < i + ps.length := fun h z hz =>
      code_idx (by rw [← h]; exact List.mem_map_of_mem hz)
    have ic : ∀ {pre : Text} {i : Nat} {ps : List (Text × Chunk)}, ∀ c ∈ (lexemes pre i ps).filter isComment,
        i ≤ c.idx ∧ c.idx < i + ps.length := fun c hc => lexemes_idx _ _ _ c (List.mem_filter.1 hc).1
    simp only [List.length_append] at hdec alike
    obtain ⟨ga, gx, gy, gb, gb', z1, z2, z3, z4, z5, z6, z7, z8, z9⟩ := middle_groups eol
      (CA := (lexemes [] 0 A).filter isComment) (CX := (lexemes (spread A []) A.length X).filter isComment)
      (CY := (lexemes (spread A []) A.length Y).filter isComment)
      (CB := (lexemes (spread (A ++ X) []) (A ++ X).length B).filter isComment)
      (CB' := (lexemes (spread (A ++ Y) []) (A ++ Y).length B).filter isComment) (a := a2) (x := x1) (y := y1) (u := u) (u' := v)
      (fun z hz => by have := it ta1 z hz; omega) (fun z hz => it (tx1.trans hx) z hz)
      (fun z hz => it (tx2.trans hY.leaves) z hz) (fun c hc => by have := ic c hc; omega) (e2 ▸ cX3) (g2 ▸ cY3)
      (fun c hc => by have := ic c hc; rw [List.length_append] at this; exact this.1)
      (fun c hc => by have := ic c hc; rw [List.length_append] at this; exact this.1)
      (by rw [e2, g2, cX2, cY2, ← spl, ← spl, hd12]) hdec
      (by rw [List.length_append, List.length_append]; exact alike.code.2)
    refine ⟨_, out', _, ga, gx, gy, gb, gb', hf', t2, ?_, by rw [cmX, Tree.wholeLayout, r1, z1], by rw [pc, cmY, Tree.wholeLayout, v1, z2],
      by rw [z3, ta1], by rw [z4, tx1], by rw [z5, tx2], by rw [z6, ← tb1], by rw [z7, ← tb2], z8, ?_⟩
    · obtain ⟨s', sa, sb, s1, s2, s3, s4⟩ := unplug_map bareTok _ _ _ hT2
      have hsl : s'.leaves.length = (leavesF ds).length := by
        have := congrArg (fun t => t.leaves.length) s2
        simpa [map_leaves, Tree.leaves] using this
      rw [lY] at s3
      have hsa : (codeOf [] 0 A).length = sa.length := by
        rw [s4, Around.before_map, List.length_map, hbef.1]
      rw [List.append_assoc, List.append_assoc] at s3
      obtain ⟨_, s5⟩ := List.append_inj s3 hsa
      obtain ⟨s6, _⟩ := List.append_inj s5 hsl.symm
      rw [← map_leaves_inj kb s' (.node k ds) s2 s6.symm]
      exact s1
    · intro hw i1 i2
      obtain ⟨a1, as, f1⟩ := layout_first _ (Nat.le_refl _) hw (map_conforms kb _ (hX.conforms hC0)) (by
        have := hfull
        rw [← map_hasEmpty (f := bareTok)] at this
        exact this) n' w' m' d'
      obtain ⟨a2, as', f2⟩ := layout_first _ (Nat.le_refl _) hw (map_conforms kb _ hY.conforms) (by
        have := hYE
        rw [← map_hasEmpty (f := bareTok)] at this
        exact this) n' w' m' d'
      rw [Tree.map, f1] at r5
      rw [Tree.map, f2] at v5
      obtain ⟨⟨dx, x0⟩, xs', g1, g3, _⟩ := List.map_eq_cons_iff.1 r5
      obtain ⟨⟨dy, y0⟩, ys', g4, g5, _⟩ := List.map_eq_cons_iff.1 v5
      simp only [onSnd, Prod.mk.injEq] at g3 g5
      obtain ⟨rfl, _⟩ := g3
      obtain ⟨rfl, _⟩ := g5
      rw [g1, List.map_cons] at tx1
      rw [g4, List.map_cons] at tx2
      have hx0 : (leavesF cs).head? = some x0 := by rw [← tx1]; rfl
      have hy0 : (leavesF ds).head? = some y0 := by rw [← tx2]; rfl
      refine z9 _ x0 y0 xs' ys' g1 g4 (i1 _ hx0) (i2 _ hy0) ?_
      have := hlk.head
      simp only [Tree.leaves, hx0, hy0, Option.map_some, Option.some.injEq] at this
      exact this

/-- **C76** An edit within a line.  Replace any part of an accepted file that is one of the grammar (the pieces `X`) by another
part of that sort with as many lines (the pieces `Y`) that looks the same from outside.  The new file is accepted, too, and its output
differs only in that place. -/
theorem C76_swap (eol name src out name' src' : Text) (p : Parsed) (A X Y B : List (Text × Chunk)) (l : Lexed) (tree : Tree)
    (k : SK) (cs ds : List Tree) (hf : Formatted eol name src p out) (hd : Divided src (A ++ X ++ B))
    (hd' : Divided src' (A ++ Y ++ B)) (hl : lex name' src' = .ok l) (he : l.errors = [])
    (ht : buildTree p.tokens p.events = .ok tree) (hk : k ≠ .StoredDefinition)
    (hX : Part (.node k cs) tree) (hx : leavesF cs = codeOf (spread A []) A.length X)
    (hY : Reading k (codeOf (spread A []) A.length Y) ds) (ho : (Tree.node k ds).Opens)
    (hs : ∀ t, (leavesF ds).head? = some t → (t.kind ≠ .End ∧ t.kind ≠ .Initial) ∨
      (leavesF cs).head?.map Token.kind = some t.kind)
    (hcX : endsInCode X) (hcY : endsInCode Y) (hn : newlines (spread X []) = newlines (spread Y []))
    (hlk : Looks (.node k cs) (.node k ds)) :
    ∃ p' out' ga gx gy gb gb', Formatted eol name' src' p' out' ∧
      out = groupsText (ga ++ gx ++ gb) ++ eol ∧ out' = groupsText (ga ++ gy ++ gb') ++ eol ∧
      ga.map (·.tok) = codeOf [] 0 A ∧ gx.map (·.tok) = leavesF cs ∧ gy.map (·.tok) = leavesF ds ∧
      gb.map (·.tok) = codeOf (spread (A ++ X) []) (A ++ X).length B ∧
      gb'.map (·.tok) = codeOf (spread (A ++ Y) []) (A ++ Y).length B ∧
      gb'.map Group.shown = gb.map Group.shown := by
  obtain ⟨p', out', tree', ga, gx, gy, gb, gb', h1, h2, _, h3, h4, h5, h6, h7, h8, h9, h10, _⟩ :=
    swap_groups hf hd hd' hl he ht hk hX hx hY ho hs hcX hcY hn hlk
  exact ⟨p', out', ga, gx, gy, gb, gb', h1, by rw [laid_tree hf ht, h3], by rw [laid_tree h1 h2, h4], h5, h6, h7, h8, h9, h10⟩

theorem formatted_nodup {eol name src out : Text} {p : Parsed} (hf : Formatted eol name src p out) : p.tokens.Nodup := by
  obtain ⟨lx, hl, l1, l2, l3⟩ := parse_lex hf.parsed hf.accepted
  have := (lexed_wf hl).ts
  rw [l1] at this
  refine this.imp fun h e => ?_
  subst e
  omega

/-- the old and the new part are trees of the grammar -/
theorem parts_conform {eol name src out : Text} {p : Parsed} {tree : Tree} {k : SK} {cs : List Tree}
    (hf : Formatted eol name src p out) (ht : buildTree p.tokens p.events = .ok tree) (hk : k ≠ .StoredDefinition)
    (hX : Part (.node k cs) tree) : Tree.Conforms (.node k cs) ∧ Tree.hasEmpty (.node k cs) = false := by
  obtain ⟨c, t, _, _, _, h⟩ := hf.laid
  rw [ht] at t
  simp only [Res.ok.injEq] at t
  subst t
  rcases h with rfl | ⟨h1, h2⟩
  · generalize hg : Tree.node k cs = g at hX
    cases hX with
    | here => cases hg; exact absurd rfl hk
    | there hc _ => cases hc
  · exact ⟨hX.conforms h1, hX.full h2⟩

theorem reading_full {k : SK} {toks : List Token} {ds : List Tree} (hY : Reading k toks ds) (h : toks ≠ []) :
    Tree.hasEmpty (.node k ds) = false := by
  have hne : ds ≠ [] := by
    rintro rfl
    have := hY.leaves
    exact h this.symm
  simp [Tree.hasEmpty, hY.full, hne]

theorem code_ne {ps : List (Text × Chunk)} (h : endsInCode ps) (pre : Text) (i : Nat) : codeOf pre i ps ≠ [] := by
  obtain ⟨qs, w, k, t, rfl, h1, h2⟩ := h
  have key : ∀ (qs : List (Text × Chunk)) (pre : Text) (i : Nat), ∃ u ∈ lexemes pre i (qs ++ [(w, .token k t)]), u.kind = k := by
    intro qs
    induction qs with
    | nil => intro pre i; exact ⟨_, by simp [lexemes]; rfl, rfl⟩
    | cons x qs ih =>
      intro pre i
      obtain ⟨v, c⟩ := x
      cases c with
      | token j s =>
        obtain ⟨u, hu, e⟩ := ih (pre ++ v ++ s) (i + 1)
        exact ⟨u, by simp only [List.cons_append, lexemes]; exact List.mem_cons_of_mem _ hu, e⟩
      | _ =>
        obtain ⟨u, hu, e⟩ := ih _ i
        exact ⟨u, by simp only [List.cons_append, lexemes]; exact hu, e⟩
  obtain ⟨u, hu, e⟩ := key qs pre i
  intro h
  have : u ∈ codeOf pre i (qs ++ [(w, .token k t)]) := List.mem_filter.2 ⟨hu, by simp [isComment, e, h1, h2]⟩
  rw [h] at this
  cases this

/-- expressions have no descriptions -/
theorem line_plain (N : Nat) : ∀ {k : SK} {cs : List Tree}, sizeOf cs ≤ N → k ∈ lineKinds → Tree.Conforms (.node k cs) →
    ∀ j, j ∉ lineKinds → occursF j cs = false := by
  induction N with
  | zero =>
    intro k cs hn
    cases cs <;> simp at hn
  | succ N ih =>
    intro k cs hn hk hC j hj
    have key : ∀ es : List Tree, (∀ c ∈ es, c ∈ cs) → occursF j es = false := by
      intro es
      induction es with
      | nil => intro _; rfl
      | cons c es ih2 =>
        intro h
        have hc := h c (by simp)
        rw [occursF, ih2 fun c hc => h c (by simp [hc])]
        have hkd := lineKinds_closed k hk _ (syms_complete hC.1 _ (List.mem_map_of_mem hc))
        cases c with
        | tok t => rfl
        | node kd fs =>
          have hsz : sizeOf fs ≤ N := by
            have := List.sizeOf_lt_of_mem hc
            simp only [Tree.node.sizeOf_spec] at this
            omega
          have hkd' : kd ∈ lineKinds := by simpa [Tree.sym] using hkd
          have hne : kd ≠ j := fun e => hj (e ▸ hkd')
          simp [Tree.occurs, ih hsz hkd' (conformsF_mem hC.2 _ hc) j hj, hne]
    exact key cs fun c h => h

/-- **C76** on one line: if the tokens of the old and of the new part are on the same line of their files, the parts look the
same if both or neither have descriptions. -/
theorem C76_line (eol name src out name' src' : Text) (p : Parsed) (A X Y B : List (Text × Chunk)) (l : Lexed) (tree : Tree)
    (k : SK) (cs ds : List Tree) (n : Nat) (hf : Formatted eol name src p out) (hd : Divided src (A ++ X ++ B))
    (hd' : Divided src' (A ++ Y ++ B)) (hl : lex name' src' = .ok l) (he : l.errors = [])
    (ht : buildTree p.tokens p.events = .ok tree) (hk : k ≠ .StoredDefinition) (hk' : k ≠ .OutputExpressionList)
    (hX : Part (.node k cs) tree) (hx : leavesF cs = codeOf (spread A []) A.length X)
    (hY : Reading k (codeOf (spread A []) A.length Y) ds) (ho : (Tree.node k ds).Opens)
    (hs : ∀ t, (leavesF ds).head? = some t → (t.kind ≠ .End ∧ t.kind ≠ .Initial) ∨
      (leavesF cs).head?.map Token.kind = some t.kind)
    (hcX : endsInCode X) (hcY : endsInCode Y) (hn : newlines (spread X []) = newlines (spread Y []))
    (lX : OnLine n (leavesF cs)) (lY : OnLine n (leavesF ds))
    (hdesc : ∀ j, j = .Description ∨ j = .DescriptionString → occursF j cs = occursF j ds) :
    ∃ p' out' ga gx gy gb gb', Formatted eol name' src' p' out' ∧
      out = groupsText (ga ++ gx ++ gb) ++ eol ∧ out' = groupsText (ga ++ gy ++ gb') ++ eol ∧
      ga.map (·.tok) = codeOf [] 0 A ∧ gx.map (·.tok) = leavesF cs ∧ gy.map (·.tok) = leavesF ds ∧
      gb.map (·.tok) = codeOf (spread (A ++ X) []) (A ++ X).length B ∧
      gb'.map (·.tok) = codeOf (spread (A ++ Y) []) (A ++ Y).length B ∧
      gb'.map Group.shown = gb.map Group.shown :=
  C76_swap eol name src out name' src' p A X Y B l tree k cs ds hf hd hd' hl he ht hk hX hx hY ho hs hcX hcY hn
    (looks_line hk' (parts_conform hf ht hk hX).1 hY.conforms (parts_conform hf ht hk hX).2
      (reading_full hY (code_ne hcY _ _)) lX lY hdesc)

/-- **C76** for expressions: replace an expression of an accepted file, written on one line, by another one.  The output of the new
file is the output of the old file with the text of the new expression in the place of the text of the old one; both texts are those of
`C15`, blanks stand where the specification says. -/
theorem C76_expression (eol name src out name' src' : Text) (p : Parsed) (A X Y B : List (Text × Chunk)) (l : Lexed) (tree : Tree)
    (k : SK) (cs ds : List Tree) (n : Nat) (hf : Formatted eol name src p out) (hd : Divided src (A ++ X ++ B))
    (hd' : Divided src' (A ++ Y ++ B)) (hl : lex name' src' = .ok l) (he : l.errors = [])
    (ht : buildTree p.tokens p.events = .ok tree) (hk : k ∈ wholeKinds)
    (hX : Part (.node k cs) tree) (hx : leavesF cs = codeOf (spread A []) A.length X)
    (hY : Reading k (codeOf (spread A []) A.length Y) ds) (ho : (Tree.node k ds).Opens)
    (hs : ∀ t, (leavesF ds).head? = some t → (t.kind ≠ .End ∧ t.kind ≠ .Initial) ∨
      (leavesF cs).head?.map Token.kind = some t.kind)
    (hcX : endsInCode X) (hcY : endsInCode Y) (hn : newlines (spread X []) = newlines (spread Y []))
    (lX : OnLine n (leavesF cs)) (lY : OnLine n (leavesF ds))
    (iX : ∀ t, (leavesF cs).head? = some t → t.idx = A.length) (iY : ∀ t, (leavesF ds).head? = some t → t.idx = A.length) :
    ∃ p' u v, out = u ++ (Tree.node k cs).oneLine ++ v ∧ Formatted eol name' src' p' (u ++ (Tree.node k ds).oneLine ++ v) := by
  obtain ⟨k1, k2⟩ := whole_line k hk
  have hk0 : k ≠ .StoredDefinition := by rintro rfl; revert hk; decide
  obtain ⟨cX, eX⟩ := parts_conform hf ht hk0 hX
  have eY := reading_full hY (code_ne hcY _ _)
  have hj : ∀ j, j = .Description ∨ j = .DescriptionString → j ∉ lineKinds := by rintro j (rfl | rfl) <;> decide
  have hlk := looks_line k2 cX hY.conforms eX eY lX lY fun j h => by
    rw [line_plain _ (Nat.le_refl _) k1 cX j (hj j h), line_plain _ (Nat.le_refl _) k1 hY.conforms j (hj j h)]
  obtain ⟨p', out', tree', ga, gx, gy, gb, gb', h1, h2, h2', h3, h4, h5, h6, h7, h8, h9, h10, h11⟩ :=
    swap_groups hf hd hd' hl he ht hk0 hX hx hY ho hs hcX hcY hn hlk
  have hb := h11 hk iX iY
  -- the groups of an expression
  have one : ∀ {eol name src out : Text} {p : Parsed} {tree : Tree} {fs : List Tree} {a g b : List Group},
      Formatted eol name src p out → buildTree p.tokens p.events = .ok tree → Part (.node k fs) tree → OnLine n (leavesF fs) →
      groupsOf eol p.comments tree.wholeLayout = a ++ g ++ b → g.map (·.tok) = leavesF fs →
      ∃ g0 ms, g = g0 :: ms ∧ g0.tok.text ++ groupsText ms = (Tree.node k fs).oneLine := by
    intro eol name src out p tree fs a g b f1 f2 f3 f4 f5 f6
    obtain ⟨a', g0, ms, b', q1, q2, _, q4⟩ := f1.line_laid f2 k fs n hk f3 f4
    have nd : (groupsOf eol p.comments tree.wholeLayout).map (·.tok) = p.tokens := by
      obtain ⟨c, t, _, t', _⟩ := f1.laid
      rw [f2] at t
      simp only [Res.ok.injEq] at t
      rw [t, t']
    have nd' := formatted_nodup f1
    rw [f5] at q1 nd
    rw [← nd] at nd'
    have hq := congrArg (List.map (·.tok)) q1
    simp only [List.map_append, q2, f6] at hq nd'
    obtain ⟨x0, xs, hx0, _⟩ := start_leaves _ (parts_conform f1 f2 hk0 f3).2
    simp only [Tree.leaves] at hx0
    rw [hx0] at hq nd'
    simp only [List.append_assoc, List.cons_append] at hq nd'
    obtain ⟨e1, e2⟩ := app_unique nd' hq
    have l1 : a.length = a'.length := by simpa using congrArg List.length e1
    have l2 : g.length = (g0 :: ms).length := by
      rw [← List.length_map (f := (·.tok)), f6, ← q2, List.length_map]
    rw [List.append_assoc, List.append_assoc] at q1
    obtain ⟨_, q5⟩ := List.append_inj q1 l1
    exact ⟨g0, ms, (List.append_inj q5 l2).1, q4⟩
  obtain ⟨g0, ms, rfl, o1⟩ := one hf ht hX lX h3 h6
  obtain ⟨g0', ms', rfl, o2⟩ := one h1 h2 h2' lY h4 h7
  simp only [List.head?_cons, Option.map_some, Option.some.injEq, Group.before, Prod.mk.injEq] at hb
  have app : ∀ (a : List Group) (g : Group) (b c : List Group), groupsText (a ++ (g :: b) ++ c) =
      (groupsText a ++ lexemesText g.comments ++ g.white) ++ (g.tok.text ++ groupsText b) ++ groupsText c := by
    intro a g b c
    simp [groupsText, groupLexemes, lexemesText, Group.lexemes]
  have t1 := laid_tree hf ht
  have t2 := laid_tree h1 h2
  rw [h3, app, o1] at t1
  rw [h4, app, o2, groupsText_shown h10, ← hb.1, ← hb.2] at t2
  rw [List.append_assoc] at t1 t2
  exact ⟨p', _, _, t1, t2 ▸ h1⟩

/-! ### Example -/

def exLineA : List (Text × Chunk) :=
  [([], .token .Model c!"model"), (c!" ", .token .Identifier c!"A"), (c!"\n", .token .Identifier c!"Real"),
   (c!"  ", .token .Identifier c!"x"), ([], .token .Equal c!"=")]
def exLineX : List (Text × Chunk) :=
  [(c!" ", .token .Identifier c!"a"), ([], .token .Star c!"*"), ([], .token .Identifier c!"b")]
def exLineY : List (Text × Chunk) :=
  [(c!" ", .token .If c!"if"), (c!" ", .token .Identifier c!"c"), (c!" ", .token .Then c!"then"), (c!" ", .token .Identifier c!"f"),
   ([], .token .LParen c!"("), ([], .token .UInt c!"1"), ([], .token .Comma c!","), ([], .token .UInt c!"2"), ([], .token .RParen c!")"),
   (c!" ", .token .Else c!"else"), (c!" ", .token .Identifier c!"b")]
def exLineB : List (Text × Chunk) :=
  [([], .token .Semicolon c!";"), (c!" ", .token .LineComment c!"// c"), (c!"\n\n", .token .Identifier c!"Real"),
   (c!" ", .token .Identifier c!"y"), (c!" ", .token .Equal c!"="), (c!"\n", .token .Identifier c!"z"), ([], .token .Semicolon c!";"),
   (c!"\n", .token .End c!"end"), (c!" ", .token .Identifier c!"A"), ([], .token .Semicolon c!";")]

def exLineOld : Text := spread (exLineA ++ exLineX ++ exLineB) []
def exLineNew : Text := spread (exLineA ++ exLineY ++ exLineB) []
def exLineItem (src : Text) : List Tree := kidsOf ((exEditTree src).find .Expression)
def exLineOldOut : Text := c!"model A\n\n  Real x = " ++ c!"a * b" ++ c!"; // c\n\n  Real y = z;\n\nend A;\n"
def exLineNewOut : Text := c!"model A\n\n  Real x = " ++ c!"if c then f(1, 2) else b" ++ c!"; // c\n\n  Real y = z;\n\nend A;\n"


set_option maxRecDepth 100000 in
set_option maxHeartbeats 2000000 in
/-- The hypotheses of `C76_expression` (and of `C76_line`) hold of a product and a conditional expression; the outputs. -/
theorem C76_case : Formatted c!"\n" c!"f" exLineOld (exEditP exLineOld) exLineOldOut ∧
    Divided exLineOld (exLineA ++ exLineX ++ exLineB) ∧ Divided exLineNew (exLineA ++ exLineY ++ exLineB) ∧
    (∃ l, lex c!"f" exLineNew = .ok l ∧ l.errors = []) ∧
    buildTree (exEditP exLineOld).tokens (exEditP exLineOld).events = .ok (exEditTree exLineOld) ∧
    Part (.node .Expression (exLineItem exLineOld)) (exEditTree exLineOld) ∧
    leavesF (exLineItem exLineOld) = codeOf (spread exLineA []) exLineA.length exLineX ∧
    Reading .Expression (codeOf (spread exLineA []) exLineA.length exLineY) (exLineItem exLineNew) ∧
    (Tree.node .Expression (exLineItem exLineNew)).Opens ∧
    (∀ t, (leavesF (exLineItem exLineNew)).head? = some t → (t.kind ≠ .End ∧ t.kind ≠ .Initial) ∨
      (leavesF (exLineItem exLineOld)).head?.map Token.kind = some t.kind) ∧
    endsInCode exLineX ∧ endsInCode exLineY ∧ newlines (spread exLineX []) = newlines (spread exLineY []) ∧
    OnLine 2 (leavesF (exLineItem exLineOld)) ∧ OnLine 2 (leavesF (exLineItem exLineNew)) ∧
    (∀ t, (leavesF (exLineItem exLineOld)).head? = some t → t.idx = exLineA.length) ∧
    (∀ t, (leavesF (exLineItem exLineNew)).head? = some t → t.idx = exLineA.length) ∧
    (Tree.node .Expression (exLineItem exLineOld)).oneLine = c!"a * b" ∧
    (Tree.node .Expression (exLineItem exLineNew)).oneLine = c!"if c then f(1, 2) else b" ∧
    Formatted c!"\n" c!"f" exLineNew (exEditP exLineNew) exLineNewOut := by
  have all : ∀ (l : Option Token) (P : Token → Bool), l.all P = true → ∀ t, l = some t → P t = true := by
    rintro _ P h t rfl
    exact h
  have line : ∀ ts : List Token, (ts.all fun t => t.start.line == 2 && t.stop.line == 2) = true → OnLine 2 ts := by
    intro ts h t ht
    simpa using List.all_eq_true.1 h t ht
  refine ⟨⟨by decide_cbv, by decide_cbv, exLineOldOut.dropLast, by decide_cbv, by decide +kernel⟩, dividedB_sound (by decide +kernel),
    dividedB_sound (by decide +kernel), ?_, ?_, find_kind _ (by decide +kernel), by decide +kernel,
    readingOf (by decide +kernel) (by decide +kernel) (by decide +kernel), opensB_sound _ (by decide +kernel), ?_,
    ⟨exLineX.dropLast, [], .Identifier, c!"b", by decide +kernel, by decide, by decide⟩,
    ⟨exLineY.dropLast, c!" ", .Identifier, c!"b", by decide +kernel, by decide, by decide⟩, by decide +kernel,
    line _ (by decide +kernel), line _ (by decide +kernel), ?_, ?_, by decide +kernel, by decide +kernel,
    ⟨by decide_cbv, by decide_cbv, exLineNewOut.dropLast, by decide_cbv, by decide +kernel⟩⟩
  · exact ⟨match lex c!"f" exLineNew with | .ok l => l | _ => ⟨[], [], []⟩, by decide_cbv, by decide_cbv⟩
  · exact resTree_ok (by decide +kernel)
  · intro t h
    have := all _ (fun t => t.kind != .End && t.kind != .Initial) (by decide +kernel) t h
    left
    simpa using this
  · intro t h
    simpa using all _ (fun t => t.idx == exLineA.length) (by decide +kernel) t h
  · intro t h
    simpa using all _ (fun t => t.idx == exLineA.length) (by decide +kernel) t h

set_option maxRecDepth 100000 in
/-- **C76** needs parts that look the same: with a description in an argument the other arguments are put on lines of their own. -/
theorem C76_description_false :
    (∃ p, Formatted c!"\n" c!"f" c!"model A\nReal x(a = 1, b = 2);\nend A;" p
      (c!"model A\n\n  Real x(" ++ c!"a = 1" ++ c!", b = 2);\n\nend A;\n")) ∧
    ∃ p, Formatted c!"\n" c!"f" c!"model A\nReal x(a = 1 \"d\", b = 2);\nend A;" p
      (c!"model A\n\n  Real x(" ++ c!"\n    a = 1\n      \"d\"" ++ c!",\n    b = 2);\n\nend A;\n") :=
  ⟨⟨exEditP c!"model A\nReal x(a = 1, b = 2);\nend A;", by decide_cbv, by decide_cbv,
      c!"model A\n\n  Real x(a = 1, b = 2);\n\nend A;", by decide_cbv, by decide⟩,
    ⟨exEditP c!"model A\nReal x(a = 1 \"d\", b = 2);\nend A;", by decide_cbv, by decide_cbv,
      c!"model A\n\n  Real x(\n    a = 1\n      \"d\",\n    b = 2);\n\nend A;", by decide_cbv, by decide⟩⟩

end Mofmt
